# Formal model of emote: design

Source: `/repo` (EmbarkStudios/emote, Python), read as text. Nothing was run.
Model and proofs: `/verif/lean`, Lean 4.33.0 with Mathlib.

## Layout

* `Verif/Base/*`     Python values used everywhere: insertion-ordered dict, exceptions, slices.
* `Verif/Model/*`    the model, function by function, each definition citing file and lines.
* `Verif/Spec/*`     independent specifications (no model helper is used in them); smaller ones are definitions
  `Spec.…` next to the theorem.
* `Verif/Lemmas/*`   helper lemmas.
* `Verif/Props/*`    the property theorems, with `example`s that meet their hypotheses.
* `seeded/LOG.jsonl` wrong programs the theorems were tested against.

Where the code violates a property, `Cxx_claim` is the property as a `Prop`, `Cxx_false` proves its negation with a
concrete witness and `Cxx_partial` is what does hold.

## Modelling conventions

* **Python dict** = association list in insertion order; assigning an existing key keeps its
  place, a new key goes to the end; `del` and `[]` on a missing key is an explicit `KeyError`.
* **Exceptions and crash points.** An operation returns the new state *and* either a value or an
  exception. State mutated before a `raise` stays mutated, as in Python.
* **Randomness** is an argument (the draws); theorems quantify over all draws. A draw is mapped on
  an outcome of positive probability; every such outcome is reachable by some draw. Probabilities
  are dealt with separately (C17, C18, C91, C92, C103).
* **Loops that may not end** (rejection sampling, waiting) get a finite list of draws or polls; running out is the
  separate outcome `diverges`, never a value.
* **Threads** (C50-C54, C84): small-step interleaving semantics, one step per lock operation or
  shared read/write; theorems quantify over all schedules.
* **Crashes** (C23): the file system is a map from path to contents, a program is a list of
  elementary effects, a crash keeps a prefix of them. Trusted: a rename is atomic.
* **Floats** are exact rationals, reals or elements of any (ordered) field. No rounding is modelled. NaN is
  modelled where the code can produce it from finite inputs (`none` in `Dynamics`).
* **Tensors** are functions/lists of numbers; dtype, device and autograd are not modelled, broadcasting only where it decides
  the property (C14).

## Modelled code

| source | model file |
|----|----|
| `emote/memory/table.py`, `strategy.py`, `fifo_strategy.py`, `uniform_strategy.py`, `coverage_based_strategy.py`, `storage.py`, `column.py` | `Table`, `Strategy`, `History`, `Prios` |
| `emote/memory/table.py` (store, restore, legacy formats) | `Serialize`, `AtomicStore` |
| `emote/memory/segment_tree.py` | `SegmentTree` |
| `emote/memory/adaptors.py`, `builder.py` (columns of the standard memories) | `Adaptors` |
| `emote/memory/memory.py` | `Proxy`, `Wrappers`, `Loader` |
| `emote/trainer.py`, `emote/callback.py` | `Trainer`, `Callback` |
| `emote/callbacks/generic.py`, `checkpointing.py`, `loss.py`, `emote/mixins/logging.py` | `Trainer`, `Checkpoint`, `Tracked`, `Logging` |
| `emote/utils/threading.py`, `timed_call.py`, `deprecated.py`, `math.py` | `Threads`, `Stats`, `Utils`, `Schedules` |
| `emote/extra/crud_storage.py`, `onnx_exporter.py`, `schedules.py` | `Crud`, `Onnx`, `Schedules` |
| `emote/algorithms/sac.py`, `dqn.py` (targets, temperature, target networks), `hlgauss.py`, `emote/utils/gamma_matrix.py` | `Returns`, `Numerics`, `Tracked` |
| `emote/algorithms/amp.py`, `action_symmetry.py` (rewards) | `Amp` |
| `emote/algorithms/genrl/*`, `emote/nn/gaussian_policy.py`, `emote/models/ensemble.py` | `Policy`, further files see the table below |
| `emote/models/model.py`, `model_env.py` | `Dynamics`, `ModelEnv` |
| `emote/proxies.py`, `emote/env/wrappers.py`, `emote/optimizers.py`, `emote/nn/layers.py` | `AgentProxy`, `Frames`, `Optim`, `Conv` |

## Simplifications, by part

* **Memory table**: locks of single-threaded use are one atomic step per method; `store`/`restore` encodings (zip, pickle, json, numpy)
  are lossless except for what the code itself converts (ranges and ids become float64, see C21); tag columns whose `post_import`
  stores a proxy object are not serialised again; legacy restore is into a fresh table.
* **Proxy and wrappers**: images and videos in reports, attribute forwarding and the tensorboard writer's own failures are not
  modelled.
* **Loaders**: a table is seen through its size and its sample function.
* **Trainer**: hooks are arbitrary functions on a world and the callback's own state that do not keep a reference to the trainer's
  state dict; `BaseException`s other than `Exception` are not modelled; cycle lengths do not change during a run; a run that never
  stops is cut off by fuel and theorems speak of every cut.
* **Callbacks**: routing is modelled on a heap of dicts; groups that are not dicts are simplified to an error.
* **Checkpoints**: `torch.save`/`torch.load` are a faithful pair, one save is one step; networks and optimizers that refuse a
  state dict are not modelled.
* **CRUD storage and ONNX queue**: file creation and queue operations are atomic steps; the export itself is an arbitrary function
  that may fail.
* **Numeric code**: no broadcasting; exact arithmetic.
* **Agent proxy**: rows of a batch have the same shape, the policy's kind matches the flag.
* **Optimizer groups**: module paths are lists of names, no `None` children.
* **Frame wrappers**: a stack is the list of its frames; no aliasing between stacks.
* **Densities** (C91, C92, C103, C104): over the reals, laws are Mathlib measures, the noise is the standard normal law.

## Not modelled

Autograd and the optimisers' own step, torch/numpy implementations, gym, tensorboard/wandb writers themselves, the ONNX graph, logging
text, multi-process collectors.

## Properties: what is modelled and how proved

The theorems of each property are listed in `MANIFEST.json`, with what a partial one lacks. Status: P proved, p partial (the code
violates the claim: `_false` with a witness, and `_partial` for what does hold), n not expressible.

| id | status | model | method |
|----|----|-------|--------|
| C01 | P | `Table`, `Strategy` | invariant by induction over adds, for all ejectors and draws |
| C02 | P | same, FIFO ejector | refinement to a bounded queue |
| C03 | P | same | invariant: each store is the projection of the abstract list of sequences |
| C04 | P | same | invariant: index lists are equal |
| C05 | P | same | invariant over histories |
| C06 | P | `resize` | decision logic plus C01 over histories with resizes |
| C07 | p | same as C01 | false for the code (`full()` flips): counterexample and `_partial` theorem |
| C08 | p | same | false (an identity used twice): counterexample and `_partial` theorem |
| C09 | P | `sample`, `_execute_gather`, storages | functional correctness for all draws and buffer contents |
| C10 | P | virtual columns | pointwise equations on the gathered output |
| C11 | P | virtual columns | pointwise equations on the gathered output |
| C12 | P | virtual columns | pointwise equations on the gathered output |
| C13 | P | proxy tag + masks + TerminalAdaptor | decision table for all windows |
| C14 | p | numpy broadcast in slice assignment | false: counterexample; `_partial` for what is rejected |
| C15 | P | FIFO sampler | closed form of the enumerated windows |
| C16 | P | FIFO sampler | closed form of the enumerated windows |
| C17 | P | `_rebalance`, coverage counters | rational/real identities, history invariant |
| C18 | p | `_rebalance`, coverage counters | rational/real identities, history invariant |
| C19 | P | ejection loops | induction over draws / prefix minimality |
| C20 | P | ejection loops | induction over draws / prefix minimality |
| C21 | P | `_serialize` / `_deserialize` | round trip on the structured archive (encodings taken as lossless) |
| C22 | p | `_deserialize` into a used table | false for some strategies: counterexample, `_partial` for FIFO |
| C23 | P | atomic_write effect list | all crash prefixes |
| C24 | p | `_restore_legacy`, `post_import` | injectivity/disjointness over all ids |
| C25 | P | `SegmentTree` | induction on the tree, all powers of two |
| C26 | P | `SegmentTree` | induction on the tree, all powers of two |
| C27 | P | `Proxy`: `MemoryTableProxy.add` | refinement to per-agent trace projection |
| C28 | P | `Proxy`: `MemoryTableProxy.add` | refinement to per-agent trace projection |
| C29 | P | `Proxy`: `MemoryTableProxy.add` | refinement to per-agent trace projection |
| C30 | p | `Proxy`: `MemoryTableProxy.add` | refinement to per-agent trace projection |
| C31 | p | `Wrappers`: logging and exporter wrappers | history invariants |
| C32 | P | `Wrappers`: logging and exporter wrappers | history invariants |
| C78 | P | `Wrappers`: logging and exporter wrappers | history invariants |
| C33 | P | `Loader` | case analysis; C34 false |
| C34 | p | `Loader` | case analysis; C34 false |
| C35 | P | `Trainer` with arbitrary callbacks | trace semantics, induction over batches |
| C36 | P | `Trainer` with arbitrary callbacks | trace semantics, induction over batches |
| C37 | P | `Trainer` with arbitrary callbacks | trace semantics, induction over batches |
| C38 | P | `Trainer` with arbitrary callbacks | trace semantics, induction over batches |
| C39 | P | `Trainer` with arbitrary callbacks | trace semantics, induction over batches |
| C40 | p | `Trainer` with arbitrary callbacks | trace semantics, induction over batches |
| C41 | P | `Trainer` with arbitrary callbacks | trace semantics, induction over batches |
| C42 | P | `Callback`: argument routing | finite-map equations; C44 false |
| C43 | P | `Callback`: argument routing | finite-map equations; C44 false |
| C44 | p | `Callback`: argument routing | finite-map equations; C44 false |
| C45 | P | `Checkpoint` on a file map | history of checkpoints; C46 false on resume |
| C46 | p | `Checkpoint` on a file map | history of checkpoints; C46 false on resume |
| C47 | P | `Logging`: the mixin | history invariant; C48 false |
| C48 | p | `Logging`: the mixin | history invariant; C48 false |
| C49 | p | `Utils`: `deprecated` | false (never stops warning); the rest by cases |
| C50 | P | `Threads`: atomic containers, read-write lock, swaps | linearizability by simulation, all schedules |
| C51 | P | `Threads`: atomic containers, read-write lock, swaps | linearizability by simulation, all schedules |
| C52 | P | `Threads`: atomic containers, read-write lock, swaps | linearizability by simulation, all schedules |
| C53 | p | `Crud` | linearizability; false for one file registered twice |
| C54 | p | `Onnx` | queue history invariant, all schedules; a failing export leaves its thread waiting |
| C55 | P | `Returns`: gamma matrix | real identities for all sizes |
| C56 | P | `Stats`: accumulators | algebraic invariant |
| C57 | P | `Schedules` | closed forms over ordered fields and the reals |
| C58 | P | `Schedules` | closed forms over ordered fields and the reals |
| C59 | p | `Schedules` | closed forms over ordered fields and the reals |
| C60 | P | `Schedules` | closed forms over ordered fields and the reals |
| C61 | P | `Numerics`: target networks, temperature | identities and limits |
| C62 | P | `Numerics`: target networks, temperature | identities and limits |
| C63 | P | `Returns`: targets of SAC and DQN | explicit sums |
| C64 | P | `Numerics`: histogram loss helper | integrals over the reals |
| C65 | p | `Dynamics`: normalizer and dynamics model | history invariant; false after a batch of one row |
| C66 | p | `Dynamics`: normalizer and dynamics model | history invariant; false after a batch of one row |
| C67 | P | `ModelEnv` | protocol invariant over all step sequences |
| C86 | p | `ModelEnv` | protocol invariant over all step sequences |
| C68 | P | `AgentProxy` | routing of rows for all observation sets |
| C69 | p | `Optim` | mutual induction over module trees |
| C70 | p | `Frames` | history invariant; false for gymnasium environments, wrong declared space |
| C87 | p | `Frames` | history invariant; false for gymnasium environments, wrong declared space |
| C71 | p | `Adaptors` | C71 false; C72 finite-map equations |
| C72 | P | `Adaptors` | C71 false; C72 finite-map equations |
| C73 | p | `clear` | false (strategies keep stale ids): counterexample and `_partial` |
| C74 | p | masks of interrupted episodes | false: proved for every window that ends an episode |
| C75 | p | `full()` after `_deserialize` | false, shown for every full memory |
| C76 | p | `_restore_legacy` then `_serialize`, `_deserialize` | false: counterexample |
| C79 | p | `Trainer`, `Checkpoint`: whole runs on top of each other | trace equations; both false in general |
| C81 | p | `Trainer`, `Checkpoint`: whole runs on top of each other | trace equations; both false in general |
| C82 | p | `Checkpoint`: state dicts of losses | field by field; false where schedules or flags are left out |
| C83 | p | `Checkpoint`: state dicts of losses | field by field; false where schedules or flags are left out |
| C84 | p | `Threads`: traced lock | invariant over all schedules; false for the execution time |
| C85 | p | `Stats`: block timers | invariant over event lists; false for blocks nested under one name |
| C88 | p | `Conv`: shapes through the layers | counting windows; false for surplus list entries |
| C89 | P | `Amp` | index arithmetic for all rollout lengths; bounds over ordered fields, false for the unclamped one |
| C90 | p | `Amp` | index arithmetic for all rollout lengths; bounds over ordered fields, false for the unclamped one |
| C91 | P | `Policy`: the head | change of variables for `tanh`, product measure over the dimensions |
| C92 | p | `Policy`: the auto-encoder's loss | Mathlib's `klDiv` computed for normal laws; false, lower bound |
| C103 | p | `Policy`: the ensemble | real inequalities, law of the sample; false upper bound; likelihood identity |
| C104 | P | `Policy`: the ensemble | real inequalities, law of the sample; false upper bound; likelihood identity |
| C77 | P | `Proxy`, `Table`, `Builder`, `Adaptors` together (`Props/EndToEnd`) | steps of an environment are followed through proxy, table and adaptors; the row arithmetic of the columns is composed with the invariants of C02, C03, C27 |
| C94 | p | `Coll`: the model-based collector on the model environment, proxy and table | an invariant of the samples within a batch and one between batches; C77 gives the rows and the progress; false for rollouts with inner ends and for the leak |
| C106 | P | `Coll`: the model-based collector on the model environment, proxy and table | an invariant of the samples within a batch and one between batches; C77 gives the rows and the progress; false for rollouts with inner ends and for the leak |
| C107 | p | `Coll`: the model-based collector on the model environment, proxy and table | an invariant of the samples within a batch and one between batches; C77 gives the rows and the progress; false for rollouts with inner ends and for the leak |
| C80 | P | `Warmup`: rounds of waiting; the table's histories | first round that is not idle; the size after an add from the minimality of ejections; false in general |
| C108 | p | `Warmup`: rounds of waiting; the table's histories | first round that is not idle; the size after an add from the minimality of ejections; false in general |
| C93 | p | `Sampler` on the loader and the schedules | the counter is the number of steps whatever they returned; measure of the interval; false because of the missing log method |
| C99 | p | `Checks`: numbers with NaN | induction over the pairs; invariant of full blocks; false for NaN |
| C105 | p | `Checks`: numbers with NaN | induction over the pairs; invariant of full blocks; false for NaN |
| C98 | p | `Report` on `Logging` | the place of the first slash is unique, so the renaming is injective; membership in the list of entries; false for equal keys of two callbacks |
| C100 | p | `Curl`: loss, target update, cutout | induction over the parameter lists; floor inequalities; log-sum-exp over any finite batch; false in three places |
| C101 | p | `Curl`: loss, target update, cutout | induction over the parameter lists; floor inequalities; log-sum-exp over any finite batch; false in three places |
| C109 | p | `Curl`: loss, target update, cutout | induction over the parameter lists; floor inequalities; log-sum-exp over any finite batch; false in three places |
| C95 | p | `Genrl` on the proxy, table and adaptor models | dict lookups; steps are mapped by the encoder and C27, C77 applied to the mapped stream; false for other outputs and for strict loads |
| C96 | p | `Genrl` on the proxy, table and adaptor models | dict lookups; steps are mapped by the encoder and C27, C77 applied to the mapped stream; false for other outputs and for strict loads |
| C97 | p | `LegacyFill` | induction over the rows; the slices are the episodes; false at the end of a dump, and for sampling |
| C102 | P | `Trunc` | invariant of the loop; rejection sampling in Mathlib's infinite product measure (geometric series) |
| C110 | P | `LossStep`: several losses on one world of parameters | the gradient seen is the own one whatever was left; induction over the sequence of batches; false for the logged rate |
| C111 | p | `LossStep`: several losses on one world of parameters | the gradient seen is the own one whatever was left; induction over the sequence of batches; false for the logged rate |
| C112 | P | `Temp` on `LossStep` | the derivative is computed; exp of a sum; monotonicity; induction over the schedules |
| C113 | p | `Disc` | sums over finite types, squares; double counting for the optimum; false for a batch-normalising network |
| C114 | P | `Importer` on `AtomicStore`, `Serialize` | induction over the complete exports (each leaves the disk at rest), then C23 for the interrupted one and C21 for what is read |
| C115 | P | `Dqn` on `Returns`, `Numerics` | sums of squares split at the means of the fibres; C63 gives the targets, the loss zero gives Bellman's right side, the soft update a contraction; best returns as limits of sums over all action sequences, independent of Bellman's equation |
| C116 | P | `Dqn` on `Returns`, `Numerics` | sums of squares split at the means of the fibres; C63 gives the targets, the loss zero gives Bellman's right side, the soft update a contraction; best returns as limits of sums over all action sequences, independent of Bellman's equation |
| C117 | P | Model/SacPolicy.lean: the loss from the networks' outputs, with the policy head of Model/Policy.lean. | The law of the actions has a density relative to Boltzmann's law on the open box; its logarithm is integrated with Mathlib's Kullback-Leibler divergence. The log-probability is integrable since 0 <= log cosh x <= |x|. |
| C118 | p | `DynSave`: network, normalisers, file and state dict | replay of the file; contraction of the running means; false with witnesses |
| C119 | P | `Ens`: tensors as functions of member, row and unit; `LossStep` | induction over the layers; sums over members split; derivatives along one parameter; false because of the common clipping |
| C120 | p | `Ens`: tensors as functions of member, row and unit; `LossStep` | induction over the layers; sums over members split; derivatives along one parameter; false because of the common clipping |
| C121 | p | `DetNet`: batch normalisation in both modes | induction over the blocks; sums are invariant under permutations; false with one-unit networks |
| C122 | P | Model/TableThreads.lean | all methods of the table as programs of single reads and writes under a lock that cannot be taken twice; simulation: the history with the moments of effect at the releases is well formed and legal for the sequential table (Props/TableThreads.lean) |
| C123 | p | `Numerics` (HL-Gauss part) | Gibbs' inequality gives the distribution of smallest loss; the mean distance from the target under a normal distribution cut off on both sides is bounded with erf(u) >= 1 - exp(-u^2), which is proved from the sign of a derivative and the limit; symmetry gives the middle; refuted at the end of the range |
| C124 | P | `Mlp`: tensors with two dimensions as rows with a width, linear layers with any parameters, both modes of the policy head | sizes fit from layer to layer; the encoder on a batch is the encoder of each row; with C68 for policies that draw numbers, agents get the action of their own row |
| C125 | p | `Agent.Face` | refuted by a concrete call; what passes through is shown by cases |
| C126 | p | `Traced`: the exporter with any network library, the live network, torch's generator, the counter and the files written | what is recorded is the evaluation-mode function of a deep copy; runs of training steps and exports with and without the exports; with C124 for the built-in policy |
| C127 | p | `SysLog.Logger` | the remembered reading is that of the report before, by induction over the readings; refuted for a resumed run |
| C128 | P | `SoftIter` over `Returns.sacTargets`, `SacPolicy.qLoss` / `policyLoss`, `endBatch`; expectation over the policy's normal noise | the mean minimises the expected squared distance; the soft Bellman operator contracts and is monotone; comparison of values by iteration |
| C129 | p | `LogWrap.add` over `Logs` | an invariant that ties the logs to all reports so far, by induction over the calls; what a cycle writes is characterised in both directions |
| C130 | p | `SacRun.trainer`: the callbacks of soft actor-critic in the training loop, with checkpointer and loader | the sorted callbacks are computed, each phase of a batch is a fold over the losses, induction over the batches with the last checkpoint as an invariant; two states that differ only in their schedules stay so; for `C130_false` two critics with one parameter |
| C131 | P | `SacRun.trainer` | the phases of a batch as in C130; the order of the losses by cases |
| C132 | P | `Targets.sacBegin`, `Targets.dqnBegin` on top of the proxy, table and adaptors of C77 | the windows of C09 as runs of an agent, then C63 and C55 |
| C133 | P | `CurlRun.backward` with a store of tensors | frame lemmas for the in-place loops; agreement with `LossStep.backward`, then C110 and C109 |
| C134 | p | `CurlRun.zdim`, `wdim`, `lossOf` | case distinction; counterexample with encoder size 5 and the default 128 |
| C135 | p | `CurlRun.Cb` on top of `LossCb` | C82 for the part that is saved; counterexample for the matrix |
| C136 | p | `Meta.callbacks`, `Meta.construct`, `Meta.attr`: classes as lists of bodies | induction over the hierarchy and over the dict of hooks; joins C42 and C43; counterexample with a class called `Callback` |
| C137 | P | `GymRun.dictStep`, `dictReset`, `collectData`, `tryOut` over any vector environment; agent ids tracked to slots | invariant over worlds of rounds, resets, resizes and samples; joins C77_transitions and C27 |
| C138 | P | `GymRun.dictStep`, `dictReset`, `collectData`, `tryOut` over any vector environment; agent ids tracked to slots | invariant over worlds of rounds, resets, resizes and samples; joins C77_transitions and C27 |
| C139 | p | `GymRun.dictStep`, `dictReset` | invariant of the carried sums, compared with a fold over the log; counterexample with the probe step |
| C140 | p | `GymRun.dictStep`, `collectData` | from C138; counterexample with a truncated slot |
| C141 | p | `GymRun.simpleBegin`, `beginBatch` | induction over the batches; counterexample with one round of warm-up and two slots |
| C142 | P | `GymThreads.turn`, `begin_`, `askToStop`, `joined`; the round of a collector is cut into a step of the environment and one insertion per finished episode | invariant over lives: environment, proxy and table agree on the steps, and what ended is added or to follow; joins C137, C138 and C77_transitions |
| C143 | P | `GymThreads.turn`, `askToStop` | turns that are left decrease by one with each turn and by nothing else |
| C144 | p | `GymThreads.turn`, `askToStop`, `begin_` | invariant of the flag; counterexample with two trainings |
| C145 | P | `GymRun.collectData`, `GymThreads.turn`, `Proxy.add`, `Table.sample`, `Targets.dqnBegin`, `Targets.sacBegin` | joins C137 and C142 (what the steps of an agent are in the log of the environment) with C132 (what the targets of a window are) |
| C146 | P | `EpsGreedy.epsilon`, `argmax`, `loop`, `forward`, `calls` | what follows is independent of the numbers already read from either generator, by induction over rows and calls with boxes of a product measure; limit of the exponential function for the rate; counterexample for the duration |
| C147 | p | `EpsGreedy.epsilon`, `argmax`, `loop`, `forward`, `calls` | what follows is independent of the numbers already read from either generator, by induction over rows and calls with boxes of a product measure; limit of the exponential function for the rate; counterexample for the duration |
| C148 | P | `Uniform.ejectLoop`, `Strategy.eject`, `Table.addSequence` | almost surely each of the finitely many sequences is drawn at some time; then C19; more draws do not change the answer |
| C149 | P | `Uniform.ejectLoop`, `Strategy.eject`, `Uniform.weights` | first draw and later draws are independent (product measure), so the probability x of an answer satisfies x = p x + q y, with p the weight of what has been picked; induction over the answer |
| C150 | P | `RealDraws.npChoice`, `choices`, `points`, `sample`, `samples`, `pyInt` | what is returned is a box of the product measure, one condition for each number read; measure of an interval between partial sums |
| C151 | P | `RealDraws.sample`, `samples` | law of one window (C150), independence of the windows from that of the numbers, linearity, variance of sums of independent variables, strong law of large numbers |
| C152 | P | `RealDraws.tableSample`, `tableSamples`, `Table.gather` | a batch is the windows at the sampled points (lemma of C09), reduction to C151 by a sampler that tracks the same lengths, sum over the stored episodes |
| C153 | p | `CkptWrite.endCycleActs`, `torchSave`, `restore`, with the disk and the crashes of `AtomicStore` | invariants over all beginnings of the effects of a run; paths of checkpoints are different; counterexamples by evaluation |
| C154 | P | `CoverageRun.run`, `sample`, `points` over `Coverage.track`, `forget`, `refresh` | for every outcome, the numbers that lead to it are a product of sets (induction over the history); product measure; an invariant gives the weights |
| C155 | P | `UniformRun.run` with `add`, `eject`, `ejectLoop`, `batch`, `choices`, `points` | for every outcome, the set of numbers that lead to it and then into any measurable set has the product of both probabilities (induction over what an ejection returns, solving an equation for the turns that draw a sequence again); induction over the history; the sets where an ejection does not end are null |
| C156 | P | `TreeDraws.draws` with `create`, `assign`, `total`, `draw` | C25 and C26 give the interval of numbers that lead to an index; induction over the draws, splitting the first number off the infinite stream; the strong law of large numbers for weights that stay |
| C157 | P | `DqnRun.train` with `trainBatch`, `LossStep.backward`, `Dqn.targets`, `Dqn.batchLoss`, `DqnNets.endBatch`; `RealDraws.tableSamples` | the derivative of the loss moves each entry tried towards its target by at least a fixed share while clipping can only shorten steps; both networks enter ever smaller balls around the fixed point of the Bellman operator; for the memory C152 with indicator functions shows that each stored transition is drawn infinitely often |
| C158 | P | `adapt` with `Adaptors.keyScale` | induction over the adaptors, finite-map equations |
| C159 | p | `DqnRun.save`, `load`, `fresh` with `train` | C159 false, by an environment with one observation; the partial theorem applies C157 to both runs |
| C160 | P | `DqnRun.trainBatch`, `train` | the derivative of the loss of a table with several outcomes per entry pulls towards their mean; the averages are a contraction, and the convergence of C157 is for any contraction |
| C161 | P | `Dyn.Model.loss`, `processBatch`, `sample` | each normalised error is the error of the denormalised prediction divided by the scale; sums over rows and columns |
| C162 | p | `Crud.step`, `Crud.advance` | an invariant of all schedules: numbers below the counter, files of different numbers have different paths; a schedule of two threads as counterexample |
| C163 | P | `SacCritics.targets`, `trainBatch`, `train` | both critics and both target networks as one table; the averages of the returns are a contraction of it, as the smaller of two values moves no more than both; the convergence of C157 |
| C164 | P | `SacCritics.targets`, `trainBatch`, `train` | as C163, with batches that change: in a deterministic environment all returns of a pair are the same, the soft backup of the target networks, a contraction with the soft value as its fixed point; with a memory (`SacMemory`), each stored transition is almost surely drawn again and again |
| C165 | P | `HlGaussRun.batchLoss`, `trainBatch`, `train`, `value` | the loss of each row of the table is a cross entropy that goes down by at least half the step times the squared gradient (`ce_step`); it is bounded below, so the gradient tends to zero and the distribution to the (average) target distribution; C123 turns that into values |
| C166 | P | `EpsGreedy.loop`, `forward`, `calls`, `DqnRun.train` | from the law of C146: weights that are a supermartingale bound the probability that an observation is met M times without the action (`rare`), geometrically in M; learning from C157; the end of exploration by Borel-Cantelli |
| C167 | P | `CoverageRun.run` | from the law of C154: weights on the draws whose expectation stays at most one bound the probability that a sequence is passed over M times (`rare`), geometrically in M because its share is bounded below; then the same for the windows of a sequence that is drawn without end (`gain2`) |
| C168 | P | `Dyn.Normalizer.update` | induction over the later batches from C65_tracks; the rate is at least 1/100 and the floor of the standard deviation does not increase distances |
| C169 | P | `UniformRun.run` | from the law of C155: the lists that may be ejected have total probability at most one (`picks_sum`), those without the episode at most 1 - len/capacity, by induction over what is left; then induction over the history |
| C170 | P | `UniformRun.run` | from the law of C155: batches without the window have probability at most (1 - its probability)^count (`batch_without`), and the memory is never over its capacity; induction over the history as for C169 |
| C171 | P | `CoverageRun.run`, `DqnRun.train` | C167 gives with probability one that every pair is tried again and again, and the sizes of the batches; then C157 |
| C172 | P | `UniformDraws.run`, `DqnRun.train`, `SacCritics.train` | the sampler's state does not depend on the numbers, so each draw is a function of its own two; they are independent, each is what is wanted with probability at least 1/(2C); second Borel-Cantelli lemma, then C157 and C164 |
| C173 | P | `MemoryDraws.run`, `DqnRun.train` | the invariant of C02 says that the table holds a bounded queue after every call, whatever was drawn; so each window is a function of its own two numbers, as in C172; second Borel-Cantelli lemma, then C157 |
| C174 | P | `MemoryDraws.run` | each window is a function of its own two numbers (C173), the numbers are independent, so the probability is a product; each factor is the share of the episodes stored at that call |
| C175 | P | `MemoryDraws.run` | each window is a function of its own two numbers (C173, C174), so the expected sum is a sum of the means of single draws (C152); the draws are independent, so variances add up, and Chebyshev's inequality |

## Findings: where the code does not do what a user would expect

Each is proved in the model unless marked (read).

* Memory: a sequence longer than the memory raises IndexError (FIFO) or never ends (uniform), with the memory already marked as filled; a
  reused identity makes the size drift; after restoring a V1 archive into a used table uniform and coverage strategies keep stale
  ids; FIFO with a simple import stays empty; a smaller `maxlen` on restore breaks; `full()` is forgotten by an archive; ids from
  2^63 raise OverflowError in uniform and coverage rebalancing; V1 ranges become floats; legacy restore does not clear the data and
  such archives cannot be stored and restored again; `clear` keeps the strategies' ids.
* Segment tree: no index check, reducing an empty range does not end, `find_prefixsum` at or above the total returns the last slot.
* Proxy: an `add` that raises loses episodes ended earlier in the same call; `RUNNING` for an unknown agent starts a misaligned
  episode; masks of interrupted episodes end like terminal ones.
* Wrappers: a raising log drops the add; tags such as `windowed[3]:a:b` are cut at the second colon.
* Loaders: the joint loader with data groups yields once.
* Trainer: exhausted data never calls `end_training`; resuming repeats a step; callbacks after the terminator miss the last
  `end_cycle`; a state key called `self` (or like the exception parameter) breaks wrapped hooks; `keys_from_member` in a group reads
  shared state.
* Checkpoints: the index is not restored so a resumed run overwrites; loss state dicts lack the schedules, the temperature loss
  ignores the load flags.
* Logging: windowed scalars are restored by the receiver's own keys; cumulative values are lost.
* Utilities: `deprecated` warns for ever; the traced lock adds execution time after the release; nested timed blocks of one name
  record a wrong time.
* CRUD: one file can be registered twice; an update racing a delete re-creates the file. ONNX: a failing export leaves the
  requesting thread waiting, a synchronous export may raise another request's failure.
* Schedules: `triangular2` overflows after 1024 periods; an unknown mode fails only at the first step.
* Models: a batch of one row poisons the normaliser for ever; agents replaced inside a step of the model environment go on from the
  ended agent's observation, and the collector stores such transitions; every batch of the collector leaves one unfinished episode for
  each environment in the memory proxy for ever; a rollout schedule that decreases raises ValueError from the table.
* The batch sampler has no `log_scalar`: every batch raises AttributeError. Final checks let NaN pass, and callbacks beyond the list
  of cutoffs.
* Warmup: a memory that is full can fall below what the loader needs again, if the capacity has no room for a batch and an episode.
* Weights & Biases reports keep only the last of two callbacks that log the same key.
* CURL: the target's projection layer never moves after construction (its generators are used up); the variant without temperature
  subtracts row maxima from columns; cutout never reaches the last row and column. (read) Without a projection layer the matrix
  still has `desired_zdim` rows.
* Legacy dumps: the last observation of an episode is taken from the next episode, a dump that ends with an episode raises
  IndexError, episodes up to ten rows are dropped, and the negative identities make uniform sampling raise OverflowError.
* Encoder proxy: outputs other than the action are dropped. Wrapped encoders and decoders ignore `strict`.
* Agents: an input key given twice gives the policy `None`; when all agents ended the policy gets an array of shape (0,).
* Optimizer groups: unlisted weights are never optimised, excluded containers raise ValueError, tied weights raise KeyError.
* Losses: the logged learning rate is that of the next step. The discriminators' gradient penalty is wrong for networks that mix rows.
* Frame stack: incompatible with gymnasium; the scaled frames' declared space is wrong.
* Encoders: list entries beyond `channels` change the reported size but not the network.
* AMP reward: unbounded below. Auto-encoder: `kl_loss` is not the KL divergence. Ensemble: the upper log variance bound can be
  exceeded.
* C118: `DynamicModel.save` writes only the network; the normalisers of inputs and targets (and the parameters of `obs_process_fn`) are
  lost, also in checkpoints. A loaded model predicts something else until it has been trained again.
* C120: `clip_grad_norm_` over all members couples them: a member with long gradients slows the others down.
* C121: `eval()` is never called, so `DeterministicModel` predicts with the statistics of the batch at hand: predictions depend on the
  other rows, single rows are refused with `ValueError`, and predicting changes the running statistics.
* **HL-Gauss values are biased near the ends of the range** (`hlgauss.py` 36, 43-47, 80-87). The value read from the logits is a mean of the centres of the bins, and the target distribution is cut off at the ends of the range: even a perfectly trained network underestimates targets near the upper end and overestimates those near the lower end, by at least half a bin at the ends. (C123_false, C123_ends)
* **A wrapped agent proxy returns nothing** (`algorithms/sac.py` 366-367). `AgentProxyWrapper.__call__` calls the proxy inside and drops its result, so the caller gets `None` for the responses. (C125_false)
* **A policy call without active agents fails** (`proxies.py` 106-116). If all agents of a call have ended and no spaces were given, the stacked observations have one dimension only and the networks refuse them. (C124_nobody)
* **Exporting changes training** (`callbacks/onnx_exporter.py`, `_trace`). The arguments for tracing come from `torch.randn` on torch's global generator, from which policies and the noise of training draw too: a run with an export trains another network than the same run with the same seed and no export. (C126_false)
* **The built-in policy cannot be exported without `requires_epsilon`.** In evaluation mode it asserts that epsilon is given. (C126_needs_epsilon)
* **Memory growth of a resumed run** (`callbacks/system_logger.py` 20-33). The first report divides by all steps since 0, not by those since the start of the process. (C127_false)
* **Critics of SAC learn the value of an environment that goes on after an end, unless `use_terminal_masking` is set**; it is off by default. (C128_critics)
* **The first rate of a resumed run** (`memory/memory.py` 265-277, 342-344). `load_state_dict` sets the number of observations but not the number at the start of the cycle, so the first `training/inf_per_sec` counts all observations before the resumption. (C129_false)
* **Metrics with the same name** (`memory/memory.py` 370, 375). `windowed[2]:speed:left` and `windowed[5]:speed:right` are kept apart but both written as `speed`. (C129_names_false)
* **Target networks are not saved** (`algorithms/sac.py` 134-135, and in the same way `algorithms/dqn.py` 48). `QTarget` has no state dict of its own, so a checkpoint holds only its logs. A process that resumes a run has, as target networks, copies of the critics it was made with, before they were loaded: random ones. (C130_false, C130_loaded)
* C134: without a projection layer `CurlLoss` still makes `_W` of size `desired_zdim` (198-202) although the signature says that it is ignored; every batch raises unless the encoder happens to have that size.
* C135: `CurlLoss` passes `network=None` (228), and nothing else saves `_W` and the projection layers: a resumed run continues with the moments of Adam for weights that have been drawn anew.
* C136: `CallbackMeta` recognises its root by the name `Callback` and an inherited hook by `__qualname__` (105, 139): `class Callback(emote.Callback)` in a user's module is not wrapped, and its hooks are called with the whole state.
* C139: `dict_reset` does not clear `_episode_rewards` (`dict_gym_wrapper.py` 86-97), so the reward of the probe step of `begin_training` is counted to the first episode of each slot.
* C140: `dict_step` marks every episode that ended as terminal (`dict_gym_wrapper.py` 42-56), also those that were cut off by a time limit.
* C141: `SimpleGymCollector` adds `num_envs` to `inf_step` in every batch, also if nothing was collected, and starts from `warmup_steps` rather than `warmup_steps * num_envs` (`collector.py` 128-135).
* C144: `ThreadedGymCollector.end_training` sets `_stop`, and nothing clears it (`tests/gym/collector.py` 68-112): in a second training with the same collector the new thread ends before its first round.
* C147: `DQNPolicy` (`experiments/gym/train_dqn_cartpole.py` 130-132) calls `epsilon_decay_duration` the "number of steps over which epsilon will decay"; after that many calls 37 % of the way to the target is left.
* (read) Tag columns restored by `post_import` cannot be exported again; the export's file mode is set after the atomic
  rename; coverage sampling does not mark itself dirty.

## Trusted base

* Lean's kernel.
* The axioms `propext`, `Classical.choice`, `Quot.sound`, which are Lean's own; none of ours, no `sorry`, no `native_decide`, no
  `bv_decide`.
* Mathlib's definitions where a statement uses them (fields, reals, measures, normal law, Kullback-Leibler divergence).
* The faithfulness of the model to the cited lines under the conventions above.

### Axioms of each theorem

Printed by `#print axioms` for every theorem of `MANIFEST.json` (names without the leading `Verif.`).

* **none** (5): `C49_false`, `Props.C05_clear_resets`, `Props.C48_false`, `Props.C48_restores_rest_partial`, `Traced.C126_partial`.

* **Quot.sound** (1): `Props.C48_false_used`.

* **propext** (24): `Agent.C125_false`, `Agent.C125_none`, `Agent.C125_partial`, `C35_watching`, `C82_alpha_partial`, `C82_false`, `C82_false_alpha`, `C82_partial`, `C83_alpha_partial`, `C83_false`, `C83_loss_flags`, `CurlRun.C135_partial`, `Frames.C70_false`, `Genrl.C95_false`, `LegacyFill.C97_false`, `Onnx.C54_false`, `Props.C06_resize`, `Props.C25_negative_index_corrupts`, `Props.C34_false`, `Props.C71_false`, `Props.C72_missing_key`, `Traced.C126_false`, `Traced.C126_live`, `Traced.C126_when`.

* **Quot.sound, propext** (91): `Agent.C125_agent_partial`, `Agent.C68_only`, `Amp.C90_mapped`, `C35_continues`, `C35_genuine`, `C35_protocol`, `C37_none`, `C39_end_training`, `C40_exhausted`, `C40_false`, `C41_flows`, `C41_nothing_else`, `C41_visible`, `C49_partial`, `Checks.C99_false`, `Coll.C94_false`, `Conv.C88_false`, `Genrl.C96_columns`, `Genrl.C96_false`, `Genrl.C96_partial`, `LegacyFill.C97_episodes`, `LegacyFill.C97_unsampleable`, `MEnv.C86_false`, `Meta.C136_false`, `Meta.C136_partial`, `Numerics.C61_distance`, `Numerics.C61_dqn`, `Numerics.C61_sac`, `Numerics.C61_shape`, `Onnx.C54_added`, `Onnx.C54_metadata`, `Onnx.C54_numbers`, `Onnx.C54_order`, `Onnx.C54_returns`, `Onnx.C54_served_partial`, `Onnx.C54_versions`, `Props.C01_size_is_stored_total`, `Props.C01_size_le_capacity`, `Props.C03_stored_as_given`, `Props.C03_unchanged_while_stored`, `Props.C04_indices_agree`, `Props.C05_full_iff`, `Props.C05_full_stays`, `Props.C05_not_full_keeps_all`, `Props.C07_false`, `Props.C08_false`, `Props.C08_false_uniform`, `Props.C08_reuse_fifo_raises_partial`, `Props.C08_reuse_random_partial`, `Props.C14_chance`, `Props.C14_false`, `Props.C14_fifo_rejects`, `Props.C158`, `Props.C158_missing`, `Props.C16_sequential_tiles`, `Props.C18_counters`, `Props.C19_draws_exist`, `Props.C20_fifo_shortest_prefix`, `Props.C22_false`, `Props.C23_complete_is_durable`, `Props.C23_failed_leaves_nothing`, `Props.C23_never_half_written`, `Props.C23_other_files_untouched`, `Props.C24_false`, `Props.C27_episodes_per_agent`, `Props.C27_own_steps`, `Props.C28_accepts`, `Props.C28_exactly_once`, `Props.C28_is_initial`, `Props.C28_stray_termination`, `Props.C29_running_start_misaligns`, `Props.C30_false`, `Props.C30_false_memory_raises`, `Props.C30_later_agents_unharmed_partial`, `Props.C33_batches`, `Props.C33_not_ready`, `Props.C33_yields`, `Props.C71_casts_only_if_nothing_to_do_partial`, `Props.C73_clear_empties_partial`, `Props.C73_clear_succeeds`, `Props.C73_false`, `Props.C76_false`, `Sampler.C93_fails`, `Sampler.C93_model_partial`, `Sampler.C93_real_partial`, `Stats.C56_window`, `Traced.C126_inputs`, `Traced.C126_versions`, `Warmup.C108_false`, `Warmup.C80_exports`, `Warmup.C80_waits`.

* **Classical.choice, Quot.sound, propext** (458): `Agent.C68`, `Agent.C68_drawing`, `Agent.C68_plain`, `Agent.C68_plain_drawing`, `Amp.C89`, `Amp.C89_refused`, `Amp.C90_false`, `Amp.C90_partial`, `Amp.C90_symmetry`, `C35_order`, `C36_counters`, `C37_counts`, `C37_when`, `C38_steps`, `C39_signal`, `C40_partial`, `C42_callback`, `C42_end_training`, `C42_plain`, `C42_self_key`, `C43_callback`, `C43_end_training`, `C43_missing`, `C43_no_arguments`, `C43_routing`, `C44_false`, `C44_lost`, `C44_partial`, `C44_wrong_value`, `C45_callback`, `C45_missing`, `C45_names`, `C45_round_trip`, `C45_saved`, `C46_false`, `C46_overwrites`, `C46_partial`, `C50_calls`, `C50_distinct`, `C50_linearizable`, `C50_sums`, `C51_linearizable`, `C51_once`, `C52_atomic`, `C52_exclusive`, `C79_cycle_unopened`, `C79_false`, `C79_repeats_step`, `C81_false`, `C81_partial`, `C84_false`, `C84_partial`, `Checks.C105_false`, `Checks.C105_grows`, `Checks.C105_partial`, `Checks.C99_loss_partial`, `Checks.C99_reward_partial`, `Checks.C99_unchecked`, `CkptWrite.C153_complete_false`, `CkptWrite.C153_false`, `CkptWrite.C153_others`, `CkptWrite.C153_partial`, `CkptWrite.C153_restore_partial`, `CkptWrite.C153_torn_partial`, `Coll.C106_accepts`, `Coll.C106_batch`, `Coll.C107_false`, `Coll.C107_kept`, `Coll.C94_environment`, `Coll.C94_partial`, `Coll.C94_sampled_partial`, `Conv.C88_partial`, `Crud.C162_false`, `Crud.C162_gone_partial`, `Crud.C162_partial`, `Crud.C53_false`, `Crud.C53_get_deleted`, `Crud.C53_get_live`, `Crud.C53_linearizable`, `Crud.C53_unique`, `Curl.C100_false`, `Curl.C100_frozen`, `Curl.C100_update`, `Curl.C101_cutout`, `Curl.C101_false`, `Curl.C101_last`, `Curl.C101_modes`, `Curl.C109_equal_maxima_partial`, `Curl.C109_false`, `Curl.C109_partial`, `Curl.C109_positive`, `CurlRun.C133_step`, `CurlRun.C133_untouched`, `CurlRun.C134_false`, `CurlRun.C134_mismatch`, `CurlRun.C134_partial`, `CurlRun.C135_false`, `CurlRun.C135_lost`, `DetNet.C121_loss`, `DetNet.C121_order`, `DetNet.C121_partial`, `DetNet.C121_rows_false`, `DetNet.C121_same_false`, `DetNet.C121_single_row`, `DetNet.C121_total_false`, `DetNet.C121_training`, `Disc.C113_best`, `Disc.C113_false`, `Disc.C113_partial`, `Disc.C113_penalty_partial`, `Disc.C113_zero`, `Dqn.C115_least`, `Dqn.C115_loss`, `Dqn.C115_range`, `Dqn.C115_sizes`, `Dqn.C115_towards_zero`, `Dqn.C115_zero`, `Dqn.C116_converges`, `Dqn.C116_greedy`, `DqnRun.C157`, `DqnRun.C157_greedy`, `DqnRun.C159_false`, `DqnRun.C159_partial`, `DqnRun.C160`, `DqnRun.C160_environment`, `DqnRun.C160_unique`, `Dyn.C161`, `Dyn.C161_bound`, `Dyn.C161_single`, `Dyn.C168`, `Dyn.C65_false`, `Dyn.C65_floor`, `Dyn.C65_floor_partial`, `Dyn.C65_inverse_partial`, `Dyn.C65_mean`, `Dyn.C65_poisoned`, `Dyn.C65_rate`, `Dyn.C65_rate_bounds`, `Dyn.C65_tracks`, `Dyn.C66_false`, `Dyn.C66_index`, `Dyn.C66_inverse_partial`, `Dyn.C66_reachable`, `Dyn.C66_targets_partial`, `DynSave.C118_catches_up_partial`, `DynSave.C118_checkpoint_false`, `DynSave.C118_file_false`, `DynSave.C118_partial`, `Ens.C119_forward`, `Ens.C119_gradient`, `Ens.C119_loss`, `Ens.C119_loss_own_data`, `Ens.C119_rows`, `Ens.C119_sample`, `Ens.C120_false`, `Ens.C120_partial`, `Frames.C70_gymnasium`, `Frames.C70_partial`, `Frames.C87_false`, `Frames.C87_partial`, `Genrl.C95_partial`, `Genrl.C96_transitions`, `GymRun.C137`, `GymRun.C137_accepts`, `GymRun.C138`, `GymRun.C139_false`, `GymRun.C139_partial`, `GymRun.C140_false`, `GymRun.C140_partial`, `GymRun.C141_false`, `GymRun.C141_partial`, `GymTargets.C145_dqn`, `GymTargets.C145_sac`, `GymTargets.C145_simple_dqn`, `GymTargets.C145_simple_sac`, `GymThreads.C142`, `GymThreads.C142_accepts`, `GymThreads.C142_complete`, `GymThreads.C143`, `GymThreads.C144_false`, `GymThreads.C144_partial`, `HlGaussRun.C165`, `HlGaussRun.C165_fixed`, `HlGaussRun.C165_logged`, `Importer.C114_import`, `Importer.C114_paths`, `Importer.C114_resume`, `Importer.C114_where`, `LegacyFill.C97_last`, `LegacyFill.C97_partial`, `LossStep.C110_isolated`, `LossStep.C110_loss`, `LossStep.C110_others`, `LossStep.C110_step`, `LossStep.C111_false`, `LossStep.C111_partial`, `LossStep.C111_rate`, `MEnv.C67_life`, `MEnv.C67_live`, `MEnv.C67_step`, `MEnv.C67_succeeds`, `MEnv.C86_partial`, `Meta.C136_loop_partial`, `Meta.C136_loss_partial`, `Mlp.C124_agents`, `Mlp.C124_eval`, `Mlp.C124_initial`, `Mlp.C124_made`, `Mlp.C124_nobody`, `Mlp.C124_policy`, `Mlp.C124_refuses`, `Mlp.C124_shared`, `Mlp.C124_values`, `Numerics.C123_ends`, `Numerics.C123_false`, `Numerics.C123_middle`, `Numerics.C123_partial`, `Numerics.C61_between`, `Numerics.C61_converges`, `Numerics.C61_follows`, `Numerics.C61_others`, `Numerics.C62_bound`, `Numerics.C62_exact`, `Numerics.C64_decoded`, `Numerics.C64_distribution`, `Numerics.C64_loss`, `Numerics.C64_mass`, `Optim.C69_contradiction`, `Optim.C69_false`, `Optim.C69_once`, `Optim.C69_partial`, `Policy.C103_false`, `Policy.C103_order`, `Policy.C103_partial`, `Policy.C104`, `Policy.C91`, `Policy.C91_range`, `Policy.C92_false`, `Policy.C92_partial`, `Props.BatchMean.C151`, `Props.BatchMean.C151_limit`, `Props.BatchMean.C151_transitions`, `Props.BatchMean.C151_variance`, `Props.C02_add_succeeds`, `Props.C02_drops_only_what_is_needed`, `Props.C02_fifo_is_bounded_queue`, `Props.C02_suffix_of_history`, `Props.C04_add_fails_only`, `Props.C04_every_stored_can_be_sampled`, `Props.C04_sample_fails_only`, `Props.C06_new_bound`, `Props.C07_oversize_add_keeps_contents_partial`, `Props.C09_rows`, `Props.C09_sample_succeeds`, `Props.C09_windows_are_genuine`, `Props.C10_next_is_following_row`, `Props.C11_nstep_next`, `Props.C12_done_mask_final`, `Props.C13_terminal_value`, `Props.C14_consecutive_or_repeated_partial`, `Props.C15_balanced`, `Props.C15_distinct`, `Props.C15_round_robin`, `Props.C17_outcomes`, `Props.C17_short`, `Props.C17_short_by_one`, `Props.C17_support`, `Props.C17_transitions_equally_likely`, `Props.C17_weights`, `Props.C17_windows`, `Props.C18_false`, `Props.C18_visit_averse_partial`, `Props.C18_weights`, `Props.C19_eject_fails_only`, `Props.C19_eject_frees`, `Props.C19_eject_keeps_tracked`, `Props.C19_random_eject_succeeds`, `Props.C19_too_much`, `Props.C20_fifo_raises_iff`, `Props.C21_round_trip`, `Props.C21_store_succeeds`, `Props.C22_restore_replaces_partial`, `Props.C24_import_renames_partial`, `Props.C24_no_collision_partial`, `Props.C25_outside`, `Props.C25_reduce`, `Props.C26_at_the_end`, `Props.C26_prefix_sum`, `Props.C29_aligned`, `Props.C31_episodes`, `Props.C31_false`, `Props.C31_forwards_partial`, `Props.C31_inferences`, `Props.C31_not_forwarded`, `Props.C32_after_add`, `Props.C32_first`, `Props.C32_happens`, `Props.C32_happens_first`, `Props.C32_rejected`, `Props.C32_spacing`, `Props.C33_duplicates`, `Props.C33_joint`, `Props.C33_joint_not_ready`, `Props.C34_first_partial`, `Props.C47_colon_first`, `Props.C47_declared_length`, `Props.C47_default_length`, `Props.C47_never_fails`, `Props.C47_windows`, `Props.C48_cumulative_lost`, `Props.C72_dict_obs`, `Props.C74_false`, `Props.C75_false`, `Props.C75_restored_not_full`, `Props.C77_accepts`, `Props.C77_contents`, `Props.C77_transitions`, `Props.C78_inf_step`, `Props.C78_report`, `Props.CoverageRun.C154`, `Props.CoverageRun.C154_succeeds`, `Props.DqnCoverage.C171`, `Props.DqnCoverage.C171_sac`, `Props.DqnMemory.C157_fifo`, `Props.DqnMemory.C157_memory`, `Props.EjectLaw.C148`, `Props.EjectLaw.C149`, `Props.EjectLaw.C149_coverage`, `Props.EjectLaw.C149_generator`, `Props.EjectLaw.C149_only`, `Props.EjectLaw.C149_uniform`, `Props.EpsGreedy.C146`, `Props.EpsGreedy.C146_calls`, `Props.EpsGreedy.C147_false`, `Props.EpsGreedy.C147_partial`, `Props.Explore.C166`, `Props.Explore.C166_ends`, `Props.Explore.C166_learns`, `Props.Explore.C166_own`, `Props.Gone.C169_additions`, `Props.LeftOut.C170`, `Props.LeftOut.C170_transitions`, `Props.MemoryDraws.C173`, `Props.MemoryDraws.C173_dqn`, `Props.MemoryDraws.C173_sac`, `Props.MemoryDraws.C174`, `Props.MemoryDraws.C174_each`, `Props.MemoryDraws.C174_unseen`, `Props.MemoryDraws.C175`, `Props.MemoryDraws.C175_near`, `Props.MemoryDraws.C175_transitions`, `Props.MemoryDraws.C175_variance`, `Props.MinTree.C25_min`, `Props.RealDraws.C150`, `Props.RealDraws.C150_possible`, `Props.RealDraws.C150_transitions`, `Props.RowMean.C152`, `Props.RowMean.C152_fifo`, `Props.RowMean.C152_transitions`, `Props.SacMemory.C164_fifo`, `Props.SacMemory.C164_memory`, `Props.Starve.C167`, `Props.Survive.C169`, `Props.Targets.C132_dqn`, `Props.Targets.C132_sac`, `Props.TreeDraws.C156`, `Props.TreeDraws.C156_often`, `Props.TreeDraws.C156_total`, `Props.UniformDraws.C172`, `Props.UniformDraws.C172_dqn`, `Props.UniformDraws.C172_sac`, `Props.UniformRun.C155`, `Props.UniformRun.C155_ends`, `Props.UniformRun.C155_stored`, `Props.UniformRun.C155_total`, `Report.C98_false`, `Report.C98_last_value`, `Report.C98_mixed_window`, `Report.C98_succeeds`, `Report.C98_tags`, `Report.C98_tensorboard`, `Report.C98_terminal`, `Report.C98_wandb_partial`, `Report.C98_window_mean`, `Returns.C55_closed_form`, `Returns.C55_discount`, `Returns.C55_refuses`, `Returns.C55_split`, `Returns.C63_dqn`, `Returns.C63_sac`, `SacCritics.C163`, `SacCritics.C163_agree`, `SacCritics.C163_unique`, `SacCritics.C164`, `SacPolicy.C117_least`, `SacPolicy.C117_loss`, `SacRun.C130_any_file`, `SacRun.C130_false`, `SacRun.C130_loaded`, `SacRun.C130_partial`, `SacRun.C130_runs`, `SacRun.C131`, `Sampler.C93_false`, `Sampler.C93_pattern_partial`, `Sampler.C93_probability_partial`, `Sampler.C93_share_partial`, `Sched.C57_between`, `Sched.C57_degenerate`, `Sched.C57_high`, `Sched.C57_linear`, `Sched.C57_low`, `Sched.C57_monotone`, `Sched.C57_scheduler`, `Sched.C58_linear`, `Sched.C58_shape`, `Sched.C58_staircase`, `Sched.C59_false`, `Sched.C59_overflow`, `Sched.C59_triangular`, `Sched.C59_triangular2_partial`, `Sched.C60_annealing`, `Sched.C60_between`, `Sched.C60_restarts`, `Shared.C122_memory`, `Shared.C122_no_deadlock`, `Shared.C122_one_at_a_time`, `SoftIter.C128_best`, `SoftIter.C128_critics`, `SoftIter.C128_fit`, `SoftIter.C128_improves`, `SoftIter.C128_linear`, `Stats.C56_last`, `Stats.C56_welford`, `Stats.C85_false`, `Stats.C85_partial`, `SysLog.C127_false`, `SysLog.C127_partial`, `SysLog.C127_usage`, `Temp.C112_batch`, `Temp.C112_direction`, `Temp.C112_gradient`, `Temp.C112_schedules`, `Traced.C126_file`, `Traced.C126_gauss`, `Traced.C126_needs_epsilon`, `Trunc.C102_bounds`, `Trunc.C102_ends`, `Trunc.C102_first`, `Trunc.C102_law`, `Warmup.C108_loader_partial`, `Warmup.C108_partial`, `Warmup.C80_returns`, `Warmup.C80_shutdown`, `WrapLog.C129_false`, `WrapLog.C129_names_false`, `WrapLog.C129_names_partial`, `WrapLog.C129_partial`, `WrapLog.C129_quiet`.
