# Formal model of thts-plus-plus: design

The code under study is `/repo` (C++20, a multi-threaded Trial based Heuristic Tree Search library).
The model and the proofs are in `/verif/lean` (Lean 4.33.0, a few Mathlib modules).

Directory layout of `lean/Verif/`:

| Directory | Content |
|-----------|---------|
| `Model/`  | executable definitions, each citing the lines of `/repo` it models |
| `Spec/`   | small independent specifications used in the statements |
| `Proofs/` | helper lemmas |
| `Props/`  | the property theorems (names start with `cNN_`), each followed by a non-vacuity `example` |

## 1. Trusted base

* Lean's kernel. Axioms allowed in any theorem: `propext`, `Classical.choice`, `Quot.sound`. No other axiom,
  no compiled-code tactic, no hole.
* The faithfulness of the hand-written model to `/repo`. The code was read, never run.
* C++ runtime semantics assumed by the model:
  * `std::mutex` gives mutual exclusion; `std::condition_variable::wait` releases the lock and sleeps atomically,
    may wake spuriously, and re-acquires the lock before returning; `notify_all` wakes all current sleepers.
  * Memory is sequentially consistent for programs without data races. That a block executed while holding a node's lock is atomic
    is assumed by `Model/Search.lean` and proved, from mutual exclusion of single mutexes, by C78 and C79 (exceptions there).
    Data that is never written after construction (`state`, `decision_depth`, ...) may be read without a lock.
  * A `shared_ptr`'s count is the number of its owners (C82 derives from this what is alive); `weak_ptr` expires when its object is destroyed.
  * `unordered_map` is a finite map with an arbitrary iteration order. The model represents a map by an association
    list; where iteration order matters the theorems quantify over every order.
* Numbers. `double` is idealised as an exact ordered field (ℚ, ℝ, or an arbitrary linear ordered field). `log`, `exp`,
  `sqrt` are the real functions. Rounding is modelled in `Model/Fp*.lean` only
  (C83-C89: IEEE binary64, round to nearest even, subnormal numbers, each operation rounded once, library functions arbitrary with the stated
  accuracy); elsewhere it is not. Overflow, NaN and -0.0 are not modelled, except where a NaN/inf arises
  from the algorithm itself in exact arithmetic (0/0, `lowest()` sentinels): those are explicit error outcomes.
  `int` counters are unbounded `Nat`/`Int`, except the `hash_combine` model, which uses 64-bit words; C92 proves that they fit 32 bits below 2^31 - 3 trials.
* Random number generators and environments are arbitrary: each theorem quantifies over every sequence of draws and
  every environment function. Environments are assumed to be pure functions of their arguments.
  Only C104 looks inside: it takes the words of `mt19937` to be uniform and independent and the distributions to be those of libstdc++ (GCC 11 or later).
  C105 takes every draw, and every order of iteration over a hash map, to be a fixed function of what was done in the tree before.
  C106 moves the root with all nodes kept; that nodes no longer below the root are destroyed is left out, since nothing leads to them.
* Time is a monotone natural number clock which may advance arbitrarily between any two steps
  (the code uses `system_clock`, which may in reality be set, also backwards: only C117 models this).

## 2. What is modelled and what is not

Modelled: `src/thts.cpp` (whole pool), `src/thts_decision_node.cpp`, `src/thts_chance_node.cpp`, `src/thts_env_context.cpp`,
`src/thts_logger.cpp`, `src/thts_types.cpp` (equality/hash), `include/thts_manager.h` (random helpers, table), the constructors and default arguments of the managers,
`src/helper_templates.cc`, `src/distributions/*`, `src/mc_eval.cpp`, `src/algorithms/**` (UCT, PUCT, MENTS, DB-MENTS, DENTS,
EST, TENTS, RENTS, common DP/empirical/entropy/temperature code),
`include/templates/thts_env_template.h` (boilerplate to be copied by users, C97) and the child creation of `thts_chance_node_template.h`.

Not modelled: the remaining casts of the node templates, `test/`, memory management other than the ownership of nodes and the manager (C82),
exceptions thrown by user callbacks, stream formatting of floating point numbers, loading/saving trees (the code throws "not implemented").

## 3. Plan per property

### Pool (`Model/Pool.lean`) - C01-C07
Small-step transition system of `ThtsPool`: the `thts_lock`, the condition variable's sleeper set, per-worker program
counters, one client thread calling `run_trials` (blocking or not), `join`, `set_new_env` and the destructor, a clock,
spurious wake-ups. `step : State -> Label -> Option State`, properties quantify over all label lists.
* C01, C02, C03, C07: inductive invariant (`started + remaining = budget`, busy counter = number of busy workers, program
  counter consistency), lifted to every reachable state.
* C04: liveness as (a) deadlock-freedom: a state with no enabled non-spurious step has the client returned, (b) a
  well-founded measure that strictly decreases on each step other than spurious wake-ups, clock ticks. Together they
  say every fair run returns. Without a time limit this is provable. **With a time limit the property is false of
  the code** (lost wake-up): a concrete reachable stuck state is proved, and the positive theorem is `_partial`.
* C05: same measure argument after the destructor set `alive=false`.
* C06: **false of the code**: `set_new_env` only checks `work_left()`, not `num_threads_working`. Concrete witness
  plus `_partial`: after `join()` returned it is safe.

### Search (`Model/Search.lean`) - C08-C19
Shared tree as a heap of decision and chance nodes, an abstract algorithm record (visit, select, sample, backup as
arbitrary functions with the interface contract of the header files), an arbitrary number of workers, one step per
node-locked block. Properties are invariants over every schedule and every random input.
* C08-C13: per-worker path invariants plus global ghost counters.
* C14-C16: tree structure invariant. C15 also gives monotone growth.
* C17: about the node constructor, for all heuristics.
* C18: transposition-table invariant. C19 is **false of the code** for reused managers (expired `weak_ptr`) and for zero
  mutexes; witness plus `_partial` for a live table and at least one mutex.
* C20: `Model/Locks.lean`: fine-grained lock acquisition (node, then its children one at a time, then leaf
  locks). Without the table the wait-for relation follows increasing depth: no deadlock. With the table
  (children shared between parents) **deadlock is possible**; concrete witness.

### Helpers - C21-C26
`Model/Sampling.lean`, `Model/Alias.lean`, over ordered fields. C21 by counting residues; C22 by loop invariant; C23 by
induction over the cumulative sums; C24 is **false** when the sum of weights is below one or when the last entry
has weight zero (spurious exception); partial otherwise. C25: loop invariant of the alias construction ("mass of every
key is conserved"). C26 is **false** for updates that add keys between rebuilds; partial.

### UCT - C27-C30
`Model/Uct.lean`: C27 running mean = exact mean (ghost list of returns) for all schedules through the Search model;
C28 invariant "some action untried -> every child was selected while untried"; C29/C30 via the argmax theorem C22.

### MENTS family - C31-C45
`Model/Ments.lean` etc. over ℝ. C31/C32: algebra of log-sum-exp; C33 permutation invariance of folds and closed
form; C34 is **false** (the loop counter `i` is never incremented): witness and exact characterisation of what is
computed; C35 real analysis; C36 from C31+C23; C37 from C22; C38-C40 fold lemmas plus Search-level invariants;
C41 entropy inequality; C42 unfolding plus agreement theorems; C43 multimap/map refinement (`Proofs/Sparsemax.lean`);
C44 sparsemax as the projection onto the simplex, spmax as the maximum of the Tsallis objective; C45 what a trial stored in
its context, step by step along its path (`Proofs/CtxInv.lean`, for any algorithm that stores something per depth).

### Evaluation and misc - C46-C54
C46 refinement to path lookup; C47 partition of indices by residue class, all interleavings; C48 **false**
(counter never incremented); C49 mean proved, "standard deviation" **false** (the code returns the variance, no square root);
C50 first run proved, later runs **false** (counter not reset while the last-log mark is); C51 **false** for later runs
(`trials_completed` never reset in the pool); C52 refinement of a bucket model
of `unordered_map` (`Model/Context.lean`, any hash, any rehash policy) to "last put since last erase"; C53 the output as tokens
(`Model/Print.lean`), by induction on the depth, uniqueness from the tree structure C14, **false** with a transposition table ("once"); C54 the same map model instantiated with the key types (`Model/Types.lean`), **false** for maps keyed by pointers to concrete types.

### Appended properties - C55-
C55 (monotone pseudo Q-values): **false** (probability 0 maps to -32, tiny probabilities below that); partial.
C56: the C27 argument for the empirical mixin. C57: **false** for epsilon 0 (0*log 0), invariant "every entropy is a
number" for positive epsilon. C58: **false** with a decaying temperature; invariant "the stored value of a settled action is its
current Q-value over the temperature" (`Proofs/Owed.lean`, `Proofs/TentsStored.lean`) for a constant one. C59: invariant "the
policy's node has the rollout's state" (`Proofs/Eval.lean`). C60: **false** (reference into a destroyed temporary).
C61, C62: **false** from the second run on; first run by invariants over what the logger is told (`Proofs/SystemLog*.lean`).
C63: **false** (slicing). C64, C65: the product of pool, search and logger (`Model/System.lean`); invariant "every trial the
pool starts is one trial of the search" (`Proofs/System.lean`), then C02/C03 and C13 are combined. C66: from C39 by induction on the
remaining depth, against the recursive `treeValue` of `Spec/Tree.lean`. C67: `treeValue` of an exhausted tree is `gameValue`, which does
not mention the search; the chance nodes of a deterministic environment have exactly one child each.

C68: the MENTS analogue of C66/C67. `Spec/SoftTree.lean` defines the soft minimax value `softTree`; proof by induction on the remaining
depth from "up to date" (every node's stored data is a backup of its children's current data); `soft_game` compares the soft maximum with
the maximum (`max ≤ temp log Σ exp ≤ max + temp log n`). `Proofs/Erase.lean` turns executions of a data-free search into executions of any
algorithm that may select every action, for the non-vacuity examples over the reals. C69: from C39 and C68 with bounds on weighted means;
the counterexample is one trial of MENTS.

C70: induction over executions; a node's data are only changed by its own visit and backup.

C71: uniform objects from C21; mixtures: the event is a finite disjoint union of products (interval of the component) x (event of the
component), `Spec/Mixture.lean`. **False** when the last weight is zero. C72: `Model/EnvDefaults.lean`. C73: `Spec/Rollouts.lean` makes the
evaluation a random process (expectations are finite sums) under an adaptive scheduler; "returns so far + expected rest of the running
rollouts - value x rollouts begun" is a martingale (`Proofs/Rollouts.lean`), and a progress measure bounds the number of steps.

C74: `Spec/Live.lean`. Every phase has an enabled step, by the invariants of C08-C11 and the selection theorems of each algorithm; the bound on
the blocks of a trial (C09) then makes every trial finish.

C75: `Spec/Explore.lean` states what an exploration term must do (`Growing`), proved for both terms of the code. If an action has been
selected less than B times, the bandit score of an action that has been selected very often is below that of the rare one, so the often selected
one is not selected again; counting bounds the trials through the node. Holds with a transposition table and any number of threads, since visits
lag selections by at most the number of threads.
C76: conservation of returns in the tree (`Proofs/Flow.lean`: the returns backed up at a node are, as a multiset, those of its children plus the
trials that ended there, minus at most one value per running trial), then induction on the remaining depth (`Proofs/Converge.lean`): the
sum of the values that reached a node deviates from (their number) x (game value) by at most e x number + K, for every e. Suboptimal actions get a
vanishing share by `Vanishing`, since the averages are close once every action has been tried often enough (C75).

C77: `Spec/Random.lean` makes the search a random process: the selected action and the observation are drawn from finite distributions (`Dice`), who runs
next is up to a scheduler that sees the history, and probabilities are finite sums (`probAfter`). For one play of the game, every trial that has not left
the play is a token whose weight grows by a fixed factor with each step it takes along the play and each trial that leaves it is paid for by a factor
`1 + p^L/2`: the product is a supermartingale (`Proofs/RandomWalk.lean`, `drift`), so the probability that all trials have left the play is
at most `missBound` (`Proofs/RandomEnd.lean`, `Props/Random.lean`). `Spec/RandomSearch.lean` gives the draws of the algorithms; MENTS and its
relatives explore by C31/C36 and by the fact that no node is visited more often than there are trials (`Proofs/Visits.lean`). The values then follow from C67 and C68.
Assumed: draws are independent and uniform (the generator is not modelled).

C90: `Spec/Stochastic.lean` defines the value of a stochastic game (expectimax, for one or two players). Three parts. (a) The supermartingale of C77, with a further factor 1/2 for
every trial that follows a play to its end, bounds the probability that a play has been followed at most M times (`Proofs/RandomHits.lean`). (b) For one chance node the
sum of (value of the sampled successor minus its expectation) has increments of mean zero, so exp(l dev - l^2 b^2 n) is a supermartingale whatever the scheduler does;
Markov's inequality gives an exponential bound for large deviations (`Proofs/RandomDev.lean`). (c) On the complement of these events every weighted mean in the tree is close
to the expectation, because the weights of C66 and C68 differ from the numbers of samples by at most one; the errors add up over the depth (`Proofs/Stochastic.lean`).

C91: The search model of C01 with rational numbers, where the rewards and heuristic values are doubles and the data of the nodes are computed with `fl`. The arguments of a backup contain
the list of rewards after the node, so the model keeps the exact sums as ghosts while the node adds the rewards in doubles itself (`Model/FpSearch.lean`). (a) By induction over the run the statistics
of a node are the fold of `backupAvg` over its backups (as for C31), and C84 bounds the error. (b) The invariants of the DP values of C38/C39 are generalised from the exact weighted mean to any
function of the children's values; the errors of C86 are added up along the levels as in C66. (c) combines (b) with C67. Not included: overflow of doubles. Every selection of a legal action is
allowed, which includes what the rounded rules select (C93).

C92: `Spec/Ints.lean` lists the int expressions computed from a node and says what a counter in the data of an algorithm is. A counter is at most the backups plus the visits that end at the node
(induction over the run, `Proofs/Ints.lean`), and every trial passes a node at most once (C13). That the limit is needed follows from C74: a search can always be continued.
Not included: counters of the logger (`trials_completed` starts uninitialised, see C50) and of the evaluator.

C93: `Model/FpUct.lean` has the UCB values with every operation rounded, as an algorithm of the search model of C91; `log`, `sqrt` and `pow` are parameters of which a relative accuracy is assumed.
The error of a value is propagated through its three operations; the largest rounded value then belongs to an action whose exact value is at most the sum of two errors below the best. The counts in
a search are below 2^31 by C92, and the averages are those of C91. The negative part is a concrete node with averages of 2^60.

C94: `Model/FpMents.lean` is MENTS as an algorithm of the search model over doubles (values, counters, selection and recommendation; no prior, constant temperature). `Spec/FpSoftTree.lean` defines the soft value of a search tree in real arithmetic and the error per level. Induction over the levels: the errors of a chance node (C86) and of a log-sum-exp (C87) are added to those below, because means and soft maxima never increase the distance of their arguments; the same induction bounds the values, which the error bounds of C86 and C87 need. `Props/FpSoftTree.lean` combines this with C68's comparison of soft values and game values. Proof of the invariants as for C68. `Props/FpSoftCount.lean`: the counters of backups of both kinds of nodes, by an invariant over all executions.

C95: `Spec/TentsTree.lean` defines the sparse maximum (supremum of the Tsallis objective over all distributions, without reference to the code) and the sparse minimax value of a search tree. Invariant over all executions: the stored value of a node is its heuristic value until the first backup, and afterwards `spmax` of its current maps (visits do not touch the maps). Together with the fact that all stored action values are current when no trial is running (C58's invariant) and with C44 this gives the value of the tree by induction over its height. Near the game value as for C68, with `max ≤ spmax ≤ max + 1/2` in place of the log-sum-exp bound. TENTS and RENTS are instances of the random searches of C77 and C90 because their policies are mixtures with uniform exploration.

C96: `Model/FpTentsSearch.lean` is TENTS as an algorithm of the search model over doubles: the maps of `Model/Tents.lean` (now for any ordered type of values), `sparseSet` and `spmax` of `Model/FpTents.lean`, chance nodes of `Model/FpMents.lean`; failed lookups are distinct outcomes. Invariants over all executions: the maps hold one value per action (so lookups succeed), and the stored value of an action without outstanding backup is its current value over the temperature, rounded; the latter is proved once for real numbers and doubles. `Spec/FpTentsTree.lean` defines the sparse value of a search tree in real arithmetic and the error per level. Induction over the levels as for C94: the sparse maximum never increases the distance of its arguments, because it is a supremum of functions that do not; C88 bounds the error of one `spmax`. Near the game value as for C95. Counters of backups as for C94.

C97: `Model/Template.lean` models the environment template (include/templates/thts_env_template.h) as a record of the typed functions a user fills in, with optional own versions of the boilerplate functions, and the interface functions on top of them. Objects carry their dynamic type, `static_pointer_cast` to another type, null dereferences and exceptions are distinct outcomes; typed maps are keyed by address, interface maps by value. Forwarding is proved function by function; for transition distributions by induction over the typed map, **false** if two pointers lead to equal states (`insert_or_assign` keeps one of the probabilities), with the consequence for sampling at chance nodes (C23). Observation distributions: **false** for every environment, the result is a null `shared_ptr` that is dereferenced; so a partially observable environment that relies on the boilerplate sampling never gets an observation. Chance node template: the observation is cast to a state, which needs full observability.

C98: The random search of C77 with the algorithms of C91 and C94 over doubles. `Spec/FpRandom.lean`: the generator is a non-empty list of equally likely doubles in [0,1) whose share in every interval is its length up to `η`; the probability of an action is the share of the draws for which `select_action` returns it. The probabilities do not add up to one: draws for which it throws are lost, so that `probAfter` is the probability of not having thrown and something else. Proof: (a) a coupling of the search with one in which a lost draw selects some action instead: the probabilities of any event differ by at most the failure rate per step; (b) every draw inside an action's segment of the computed distribution, with a margin for the rounded running sum, selects it, so the share of an action is at least a quarter of its exploration probability; this needs an invariant that bounds all values in every reachable state (not only when no trial is running); (c) C77 for the coupled search, and C94 (MENTS) or C91 (DB-MENTS) for the states it ends in. Shown for the grid of multiples of 2^-53. That the failure rate cannot be dropped is shown by a concrete search.

C99: The DENTS model as it is (`Model/Dents.lean`; `visit_ent` is never called in the code, so the model's visit does not touch the entropy data). Invariant over all executions: the entropy count of a decision node is one plus the number of its backups. With `reach_uptodate` the entropy of a chance node is the mean of its children's entropies with these counts; backups are counted by the trials that went on from the node (`Bk`). In mcts mode without table a node that is not the root and not a leaf is the end of exactly one trial, so the count is the number of visits. Negation: three trials of one action with two successors at the maximal depth.

C100: `LocalInvG` with the depth of the node: `|H| <= (remaining + 1) log B` and, for one player, `0 <= H`, from `c41_entropy_range`, the policy being a distribution (`c31`) and the mean of a chance node lying between its children's values. The bound on Q-values follows with `c42`, the fading with `c42_value_temp_decays`.

C101: Expected to be **false**: a node ignores every action that its parent's policy does not list (probability zero), unless all weights are below 1e-16. Witness: a run of the model with a state whose best action is not available in the state before. What holds: with `M` the largest value over the temperature, the sum of the weights is between 1e-16 and the number of actions (below the root at most 1, because the parent's policy is a distribution), so a node's value is within `16 log 10` temperatures of the maximum whatever the parent's policy was. `reach_uptodate` is extended to carry facts about the context a node was backed up with; the invariant of the contexts is that all stored policies have non-negative entries with sum at most one. Induction over the levels as for C68 and C95, for deterministic games and (with C90's sampling error) stochastic ones; random searches by `c95_rents_explores`. If all states have the same actions, the parent's policy gives each at least the exploration probability `p`, and `log (1/p)` replaces `16 log 10` (`loss p`). The result: `c101_false`, and the `_partial` theorems with `loss p`.
C102: The proof of C76 needs that the returns of a chance node are close to its value, which in a stochastic environment holds only with high probability and, since an action is selected because of its past returns, has to hold at all times of the search at once. `Proofs/Ville.lean`: a maximal inequality: the probability that at some time of the search the sum of the `n` samples of a chance node is farther than `η n + K` from its expectation is at most `2 exp(-η K / (2 b²))` (the exponential supermartingale of C90, stopped at the first such time). `Proofs/UctStoch.lean`: for the searches in which this never happens (a class closed under prefixes) the induction of C76 is repeated with a fixed accuracy at each level: the returns of a chance node are those of its successors with the rewards added (`flow_chance` with many successors), weighted as the samples are up to a constant. The union over the finitely many chance nodes (`chance_count`) and a choice of `K` give the probability.

C103: `Model/Reader.lean`: a thread inside `recommend_action` reads the children of a node one after the other (node's map, then the child), with any steps of the program in between (`Reading`), and the locations read by a recommendation and by a step of an evaluation. Positive part: from `c81_when_joined` (all workers are outside of trials) no step of the program accesses a node or changes the tree until the pool is called again (case analysis on `Prog.step`, induction over the schedule), so the reads give the `View` of one state, to which `c81_tree_partial` applies. Negative part: `lift_reach` is generalised to a non-blocking call and to whole paths; a UCT search with random actions is run at the level of locks up to a worker about to write the root or the child being read, and up to two moments between which the reads are torn.

C104: `Model/RandManager.lean`: the constructor and the two draw functions with a generator as a sequence of 32-bit words and the distributions of libstdc++ (an integer in [0, RAND_MAX] takes the upper 31 bits of one word, a real takes two words). Words are uniform: probabilities are shares of the first 2K words (`Spec/RandManager.lean`). The j-th integer reads word j, the k-th real words 2k and 2k+1; so a list of requests is a conjunction of conditions on the pairs of words, its probability a product over the pairs (`Fintype.card_piFinset`), and each factor is counted: all but a few second words decide whether the real is in the interval, and residues are evenly spread among the rest. Negative part: the raw integer 2k+1 is within 2^-30 of the k-th real; a combination of answers with probability zero.

C105: "Seeded" runs of `Model/Program.lean`: every random choice is a fixed function of the trace of the search so far. The trace of a one-worker search is then unique (induction over its length) and the states in which the worker is idle after n trials are unique; the program's runs project to the search (`reach_project`), and `join`/blocking calls return when exactly n trials are complete (C02, C64, C81). Negative part: two schedules of a toy search with two workers. (`Spec/Repro.lean`, `Proofs/Repro.lean`, `Props/Repro.lean`; toy search: `Spec/ReproToy.lean`.)

C106: `set_new_env` between searches changes only the root (`Model/Reuse.lean`); `Online` is the closure of steps and of moves of the root to one of its descendants. Simulation: for a node d of which no root was ever a proper descendant, a numbering of the nodes below d relates the state to a state of a search started at d; workers outside the part below d, or past it in their backup, correspond to idle workers or to workers at the end of their backup; entering d corresponds to beginning a trial (`Proofs/Reuse*.lean`, `Props/Reuse.lean`). Needs that the code of a node looks at rewards, returns and context entries from its own depth on only (`Alg.Local`), proved for every algorithm except RENTS. Negative parts: toy searches, and C45 for RENTS.

C107: `Counts` says what the methods of an algorithm do to a counter (equations, where C92 had inequalities); invariant: the counter is the backups done at the node, plus the trials that ended there if it is a leaf (`Proofs/Counters.lean`). With C13 and the balance of visits and backups this gives the counts at rest (`Props/Counters.lean`); in mcts mode every node but the root is entered for the first time by a trial that ends there. TENTS counts as long as its maps are intact, which C43 shows. Negative part: a concrete MENTS search.

C108: `Spec/Rounds.lean` defines rounds: pieces of a run from rest to rest in which every action of every node that is not a leaf is selected. Invariant with parameter n (`Proofs/Rounds.lean`): decision nodes with at most n moves to go, and the actions there, have the game's value; an action with n+1 moves to go that was backed up in this round has it too; a decision node with n+1 moves to go has it, or some action of it was not backed up yet in this round, or some worker is about to back it up. At rest after the round this gives the same for n+1. An exhausted search creates no more nodes, so nothing is undone; for n = 0 new nodes do no harm, so the first statement holds at the end of the first search. Negative part: a concrete search of a game of two moves.

C109: `Spec/Calls.lean` defines the expectation over several calls of run_trials as nested expectations (each call raises the budget of trials). The supermartingale of C90 (a play that is left raises it, a play that is followed halves it) has its value at the beginning of a call at rest, so the probability that a call ends without having followed a given play is bounded as in C77, whatever happened before (`Proofs/Calls.lean`). If every play was followed in a call then every action of every node was selected in it, which is a round of C108; the first call exhausts the tree. Induction on the number of calls, union bound (`Props/Calls.lean`).

C110: `Model/Managers.lean` models the argument structs and constructors of the managers (include/thts_manager.h and the managers of the algorithms) with their default values. `Spec/Defaults.lean` says what it means that episodes end within L moves. A node at depth j of a search lies at the end of a play of j moves, so at depth L it is a sink: two depth limits beyond L agree on which nodes are leaves, which is the only use the code makes of the limit. Hence the same steps, runs and probabilities (`Proofs/Defaults.lean`). The theorems about random searches (C77, C95, C102) then apply with limit L. In mcts mode without table the tree after N trials has at most N + 1 nodes, hence depth at most N, so a run of N trials is also a run with depth limit N + 1, and C74 bounds the length of its trials, whatever the environment.

C111: no new model code: it composes the search (C66-C68, C77, C90, C110) with the evaluator (C46, C47, C59, C73). The link is a statement about nodes: after the search every node that is not a sink has a value V, and following its recommendation changes (reward + V of the next node - V) by at most a given error. Deterministic: the error is 0 (C67), so the sum of the rewards so far plus the value of the current node is invariant during a rollout, and at a sink the value is 0. For MENTS the error is temp log B per move (C68). With chance: C90 at every node instead of the root only, then an induction over the moves to go of the expected return of the tree policy, then C73 (unbiased mean).

C112: uses the product of pool, search and logger in `Model/System.lean`. Absence of stuck states: a step of the pool that is possible (C04) is a step of the system, except the end of a trial that is not finished yet, and then the search can go on (C74). Termination: the measure of C04, times the maximal length of a trial plus a constant, plus the steps left in each running trial, decreases with every step of the program (`Proofs/Whole.lean`). The number of trials is that of C64.

C113: no new model code. Witness game (`Spec/Average.lean`): at the start `stop` gives 9/1000 and `on` leads to a fork where `good` gives 1/100 and `bad` nothing. All average returns stay below 3/100, so at temperature 1 every selection is between 0.49 and 0.51, whatever the exploration. For weights f of the actions whose mean under every such choice is at most 1, the product of f over all selections of the search does not grow on average (the same kind of argument as C77). With suitable weights the product is at least (11/10)^N whenever the average return of `on` is at least 9/1000 after N trials, and at least (19/10)^N when `stop` was never tried. The average returns come from conservation of returns at a quiescent tree (C102, exact because no worker holds anything). The partial theorems use the same conservation law.

C114: no new model code; the mixture is `fullDistr` of `Model/Ments.lean`. Exact condition: the Boltzmann probability of an action gets arbitrarily close to one, and the prior may give it nothing. Dropping a negative entry leaves a sum above one, for which the loop of the sampler throws (induction on the list). Search: a game of one move in which the values of the chance nodes are a local invariant, so the better action has at least Boltzmann probability 1/2 once it has a child, its entry is at most -1/10 while the weight of the prior is at least six, and every draw throws. The partial theorem weakens the bound on the weight in the hypothesis of C31 and C36 from log 4 to log(visits+3). `Props/PriorMore.lean` does the same for an arbitrary base policy, hence for TENTS and RENTS.

C115: no new model code: the pool of `Model/Pool.lean` with zero workers and the evaluator of `Model/McEval.lean` with zero threads. Hanging is an invariant of the blocked client: no worker exists, the budget stays positive, and every enabled step keeps the client inside the call.

C116: `Model/PrintMap.lean` models the printing loops and the operator for the table. The table of a reachable state has only live entries if it began empty (an invariant of the search), and keeps the expired entries it began with; destruction is that of `Model/Memory.lean`. The texts of the integer states and actions are modelled too; that they determine the value follows from the injectivity of decimal notation and the absence of commas in it.

C117: `Model/PoolClock.lean` adds to the pool a step that sets the clock, and the time that has really passed. Setting it forwards is a number of ticks, so such runs are runs of `Model/Pool.lean`; without limits the time of a state is irrelevant (simulation); the budget is an invariant of its own. Counterexamples are schedules, one of them for every duration.

C118: `Model/FpEval.lean` is `get_stddev_return` with every operation rounded; `pow` is a parameter of which a relative accuracy is assumed. The error of the mean is that of C84; it is propagated through the difference and the square, and the weighted sum is that of the mean with one more element. Expected to be **false**: equal returns have the spread zero; witnesses are evaluated.

C119: `Model/PoolEnv.lean` adds to the pool the two pointers of the installed triple and the test of the constructor. Invariant: the pool's triple is the one of the last successful `set_new_env`. Expected to be **false**: null pointers are refused; witness: a schedule for every null triple.

C120: `Model/Ments.lean` unchanged. Invariant over all executions: a chance node that has not been backed up still has the value its constructor gave it. `Props/MentsFlight.lean`: so the action has the default value, which without a prior is that of an untried action. Expected to be **false** with a prior; witness: the state after one selection.

C78: `Model/LockLevel.lean` runs the search at the granularity of single lock operations and single accesses to a node or to the table; workers
interleave inside blocks. `Proofs/LockStep.lean` lists the effects of a step, `Proofs/LockInv.lean` and `Proofs/LockRace.lean` prove that the locks
held agree with the program counters and that every access is protected by a held lock. `Proofs/LockAccess.lean` proves that the declared accesses are all there are. `Props/TableMutex.lean`: the table mutex a worker locks is the documented `hash % size` and exists, when the vector is not empty.

C79: `Spec/LockLevel.lean` says when an algorithm's code, which reads the children in rounds, looks like an algorithm that reads them once
(`Simulates`); `Model/LockAlgs.lean` gives the rounds of each algorithm. `Proofs/LockRel.lean` relates a state inside blocks to a state between
blocks (a block takes effect when its last child has been read in the chosen round), `Proofs/LockRefine*.lean` prove that every step keeps the
relation, `Proofs/LockMain.lean` concludes. `Spec/LockChain.lean` and `Proofs/LockTorn.lean` contain the run of DB-MENTS with a torn backup.

C80: `Spec/LockFree.lean` defines what it means to wait, to be deadlocked and to finish. Deadlock freedom: a worker that waits inside a block
waits for a node deeper than the one it is inside (decision node at depth d, chance node at depth d and a half), or for the table's mutex, whose holder
waits for nothing; so a worker inside the deepest such block does not wait. This uses that the children of a node are locked only from inside their
parent's block. With the table a decision node can have several parents of the same depth, and the argument only covers code whose backups of chance
nodes lock no child (UCT, PUCT). Termination: a measure per worker (blocks left in the trial, rounds left
in the block, mutexes and children left in the round) falls with every step except the beginning of a trial; steps change one worker's measure, other
workers' measures do not grow, so the multiset of measures falls in the Dershowitz-Manna order. Completeness: each block can be executed by one worker
while the others stand still between blocks, and then has the effect of the block; by induction on the run. The deadlock is derived for all algorithms
at once: a run of whole blocks is computed without node data (in an environment with one action per state every algorithm that finds an action makes
it), completeness gives the run with locks, and six more lock operations lead to the deadlock. That selection finds an action at the level of locks
follows from the search in whole blocks, except for DENTS, whose backups are torn: `Proofs/LockLocal.lean` is a local invariant for the level of locks
(data in nodes, data read so far, data about to be written), instantiated in `Proofs/LockDents.lean` with "all values and entropies are numbers".

C81: `Model/Program.lean` is the product of the pool, the search at the level of locks and the logger, with `logging_lock`. Invariant: each part is
in a state that it can reach alone, and a worker is inside the tree or `try_log` only while the pool says that it runs a trial. Never stuck: if
some worker is inside a trial the search can go on (C80); if none is, the root's mutex is free and a logging worker can go on; if none is logging either,
every trial is over and the pool can go on (C04). Termination: lexicographically, the lines of `run_trials` left before the budget is installed,
the measure of C04, the number of stages left in trials and `try_log`, and the well-founded order of lock-level steps of C80. The hang with the table
lifts the deadlock of C80: every run at the level of locks is the run of some schedule of the whole program.

C82: `Model/Memory.lean` has the destructor of `shared_ptr` as a recursive function on a heap of objects with a count and the references they own; fuel is
the stack. The heap of a search is computed from its state: children and the manager are owned, the parent and the table's entries are not. Invariant
of the destructor: the count of an object is the number of references from live objects plus the number of handles (`Acc`). Partial correctness by
induction on the fuel, total correctness with a rank (depth limit minus depth); what is alive afterwards is what handles reach, because a
finite ranked heap in which everything has an owner has no unreachable part. Lower bound on the stack: without the table each node has one owner,
so a path from the root is destroyed in one nest of calls; a trial without mcts mode leaves a path to the depth limit (C10, C74).

C83-C89: floating point. `Model/Fp.lean` defines rounding to binary64 as a function `fl` on the rationals. Facts to prove about it: monotone, idempotent, odd,
relative error 2^-53 plus an absolute error for subnormal numbers, integers up to 2^53 are exact, sums of doubles have no absolute error. The code's functions are then
restated with every operation rounded (`Model/FpCode.lean`).
C83: the running mass is within n·2^-52 of the exact prefix sum, by induction; a key is returned if the draw is below the last one; the two exceptions are
excluded if the total is close to one and the last weight exceeds the error. Expected to be false in general (draws close to one; a mass that rounds to one before a
tiny last weight), with witnesses evaluated by the kernel.
C84: n·avg − sum grows by at most n times the local error per backup. The interval: a step from the average towards the new return is at most the distance, because
the division by n ≥ 2 outweighs both roundings, and rounding is monotone. The first backup is exact because the average starts at zero.
C85: relative error analysis of softmax, then C83. Expected to be false without exploration: a probability of 1.05e-16 is kept while the other one rounds to one.
C86: error per child; witnesses for one child with three backups.
C87: the sum of the weights is relatively accurate (C85), the logarithm turns the relative error into an absolute one, the largest value is added with one rounding.
C88: `Model/FpTents.lean`. Expected to be false: from |Q|/temperature = 2^54 on adding one changes nothing, the sparse set is empty and the weights are -1/0. Between 2^53 and 2^54 adding one is a tie, so the parity of half the value decides.
For smaller values: if no action is close to the boundary of the sparse set, the rounded test agrees with the exact one, and spmax is accurate up to n^2 B^2 2^-53.
Near the boundary: spmax of a set of actions is the minimum over thresholds of a quadratic function, and an action that is wrongly in or out is next to the threshold (induction over the
decreasing list), so the value changes only to second order and the threshold to first.
C89: `Model/FpAlias.lean`, the pairing loop with rounded subtraction. Invariant: thresholds stay non-negative (rounding is monotone), each step loses at most one
rounding error of mass; what is left over is on one side of one, so the sum of the deviations bounds each of them.

## 4. Disagreements between the code and the expected property

Each line: property, theorem with the concrete witness, what is proved instead.

| Property | Witness | What the code does | Positive theorem |
|---|---|---|---|
| C04 | `c04_..._false` | with a time limit, the last worker to see the limit can miss the notification: `join` sleeps for ever | no time limit |
| C06 | `c06_..._false` | `set_new_env` only looks at the work left, not at the trials in flight | after `join` |
| C19 | `c19_..._false` | expired `weak_ptr` in a reused table, zero mutexes, several mutexes for one map | live table, one mutex |
| C20 | `c20_..._false` | with a transposition table the node locks can be taken in a cycle | no table |
| C23 | `c23_..._false` | a trailing key of weight zero is returned / the loop runs off the end | positive total, last key positive |
| C24 | `c24_..._false` | unnormalised weights are not rescaled correctly | normalised weights |
| C26 | `c26_..._false` | updates between rebuilds are stale, new keys index out of bounds | after a rebuild |
| C34 | `c34_..._false` | the loop counter of the shift computation is never incremented | what is really computed |
| C55 | `c55_pseudo_q_monotone_false` | clamp only applied to probability exactly 0 | zero or at least exp(-32) |
| C58 | `c58_sparsemax_false` | stored values are divided by the temperature of an earlier visit | constant temperature, no unfinished trial below the node (always so with one worker) |
| C48 | `c48_length_limit_false` | `num_actions_taken` is never incremented | limit not positive; environments with bounded walks |
| C49 | `c49_stddev_false` | the variance is returned, no square root | it is the sample variance |
| C60 | `c60_dangling_context_false` | reference to the object of a temporary `shared_ptr` | environments that keep their contexts |
| C50 | `c50_every_dth_false`, `c50_uninitialised_false` | `last_log_num_trials` is reset by each run, `trials_completed` never, and never initialised | first run, counter zero; exact description of every run |
| C51 | `c51_accumulates_false`, `c51_overcounts_false` | the pool compares the count of all trials with the size of the current run | first run |
| C61 | `c61_per_delta_false` | the threshold restarts at delta, the runtime does not | first run |
| C62 | `c62_monotone_false` | consequence of C51 | first run |
| C63 | `c63_columns_false`, `c63_values_lost` | `vector<LoggerEntry>` slices the entries | the two base columns |
| C53 | `c53_table_repeats_false` | a node shared through the transposition table is printed below each parent | no table |
| C54 | `c54_typed_distr_false` | `IntPairStateDistr` etc. use the library's hash of `shared_ptr`: keyed by address | pointers to the interface types, transposition keys |
| C57 | `c57_epsilon_zero_false` | 0 * log 0 in the policy entropy, then no action can be selected | epsilon > 0 |
| C71 | `c71_mixture_false` | a mixture whose last weight is zero throws | positive last weight |
| C72 | `c72_override_ignored_false` | a fully observable environment samples the next state even if it overrides the observation distribution | default distribution |
| C78 | `c78_table_race` | several mutexes, chosen by key, guard one hash map | at most one table mutex; nodes with any number |
| C80 | `c80_table_deadlock`, `c80_ments_deadlock`, ... | with the table two chance nodes can share children; two backups lock them in different orders | no table; UCT and PUCT also with the table |
| C79 | `c79_dbments_not_atomic` | a DB-MENTS (or DENTS) backup unlocks the children between reading their soft values and their DP values | each kind of value by itself; the other algorithms |
| C81 | `c81_ments_hangs`, ... | the deadlocks of C80 inside a blocking `run_trials` | no table; UCT and PUCT also with the table |
| C81 | `c81_run_size_race` | `num_trials` is written under the pool's mutex and read under the logger's | `join` between two calls of `run_trials` |
| C82 | `c82_stack_false` | a tree is destroyed recursively, so no stack suffices for all trees | `c82_stack_partial`: room for two destructors per level up to the depth limit |
| C82 | `c82_second_tree_false` | entries of a destroyed tree stay in the table as expired `weak_ptr`s, which the next tree's trial dereferences | one tree per manager, or no table |
| C83 | `c83_high_draw_false` | the probabilities' rounded sum is below one, and the draw is between the two | `c83_sample_partial`: draws below one minus the rounding error |
| C83 | `c83_tiny_weight_false` | the running mass rounds to one before a last weight of 1.05e-16, which is treated as an error for every draw | `c83_sample_partial`: weights above the rounding error |
| C83 | `c83_uniform_false` | with 36217 equal probabilities the running mass exceeds one minus the tolerance before the last key | `c83_uniform_partial`: at most 2000 keys |
| C84 | `c84_heuristic_false` | a heuristic value with zero pseudo trials takes part in the first rounded step | `c84_range_heuristic`: at least one pseudo trial |
| C85 | `c85_gap_false` | without exploration an action of probability 1.09e-16 is kept while the other one has probability one | `c85_select_partial`: exploration probability at least n(6n+12) 2^-53 |
| C86 | `c86_one_child_false`, `c86_range_false` | (3 * 0.1) / 3 rounds up | `c86_value_partial`, `c86_one_child_partial` |
| C88 | `c88_large_false`, `c88_large_one_false`, `c88_between_false` | from values of 2^54 temperatures on the sparse set is empty: the value of the node is 1/2 and selecting throws | `c88_select_partial`, `c88_value_everywhere_partial`: values below 2^53 temperatures; `c88_policy_everywhere_partial`; sharper with no value next to the boundary of the sparse set: `c88_value_partial`, `c88_policy_partial` |
| C93 | `c93_less_tried_false` | averages of 2^60 absorb an exploration term of 3 | `c93_selects`: best up to two rounding errors |
| C92 | `c92_evaluator_false`, `c92_logger_delta_false`, `c92_logger_uninitialised_false` | `i += num_threads` after the last rollout; `last_log_num_trials + trials_delta`; `trials_completed` is not initialised | `c92_evaluator_fits`, `c92_logger_fits_partial` |
| C97 | `c97_transition_false`, `c97_equal_states_throw` | typed distributions are keyed by address, interface ones by value; `insert_or_assign` drops all but one of the probabilities of equal states | `c97_transition_partial`, `c97_sampling_partial`: no two pointers to equal states |
| C97 | `c97_observation_distribution_false`, `c97_pomdp_sampling_false` | the result of `get_observation_distribution` is a null `shared_ptr` that is dereferenced | sampling in fully observable environments, own sampling functions |
| C99 | `c99_false` | `EntDNode::visit_ent`, which would count the trials that end in a leaf, is never called | `c99_mcts_partial`, `c99_full_depth_partial`: no successor is a leaf |
| C101 | `c101_false` | a RENTS node ignores actions its parent's policy does not list: value at most 11 instead of 30, worse action recommended | `c101_*_partial`: `loss p` temperatures per move instead of `log` of the number of actions |
| C103 | `c103_race_false`, `c103_child_race_false`, `c103_torn_false` | recommendations and `EvalPolicy` take no locks | when `join` has returned and until the next `run_trials` |
| C104 | `c104_seeded_false` | the constructor seeds both generators with the same seed | seed zero; any seed up to a factor close to one (`c104_program_partial`) |
| C105 | `c105_two_workers_false`, `c105_time_limit_false` | which worker gets which random number depends on the schedule; the number of trials depends on the clock | one worker, no time limit (`c105_reproducible`); equal numbers of trials (`c105_same_number`) |
| C106 | `c106_rents_false`, `c106_mcts_false`, `c106_table_false` | RENTS looks for its parent's policy at every depth above zero; the trial that creates a node visits it without selecting; the table brings in trials that do not pass through the new root | other algorithms, without table (`c106_fresh`, `c106_goes_on`); mcts mode up to one look (`c106_mcts`) |
| C107 | `c107_mcts_false`, `c107_ments_false` | the trial that creates a node ends there and is never counted as a backup, so a successor found once has weight zero | without mcts mode backups and visits agree everywhere (`c107_full_depth`); at the root always (`c107_root`) |
| C108 | `c108_stale_false` | with a transposition table a trial backs up only the parents it came through, so other parents keep values computed from older values of their children | exact after as many rounds as the game has moves, less one (`c108_root`) |
| C113 | `c113_est_false`, `c113_dents_false` | with `use_dp_value=false` and a search temperature that does not decay, the average return of a move also counts the bad continuations the search keeps exploring: the probability of an optimal recommendation tends to zero | averages are never too high (`c113_never_above_partial`), exact for last moves (`c113_last_move_partial`), so games of one move are solved (`c113_one_move_partial`) |
| C114 | `c114_throws_false`, `c114_two_actions_false`, `c114_search_throws_false`, `c114_no_more_false`, `c114_null_pointer_false`, `c114_null_false`; TENTS and RENTS: `c114_tents_throws_false`, `c114_rents_throws_false`, `c114_null_tents_false`, `c114_null_rents_false` | the weight of the prior is divided by log(visits+3) but not limited to one; negative entries of the mixture are dropped and the rest adds up to more than one | exact condition (`c114_exact`); for every weight at nodes visited at least exp(weight)-3 times (`c114_old_nodes_partial`) |
| C115 | `c115_no_trial_false`, `c115_zero_threads_false`, `c115_time_limit_false`, `c115_rollouts_false` | zero threads are accepted, and nobody does the work or wakes the caller | at least one thread (`c115_some_threads_partial`), calls that ask for nothing (`c115_nothing_asked_partial`) |
| C116 | `c116_destroyed_false`, `c116_second_tree_false`, `c116_ambiguous_false` | `operator<<` for the table constructs a `shared_ptr` from every `weak_ptr`, which throws for a destroyed node; elements are not quoted | exactly when all nodes are alive (`c116_table_iff`), always during the first search (`c116_first_tree_partial`); vectors and maps always |
| C117 | `c117_late_false`, `c117_after_return_false`, `c117_early_false` | the pool measures time with `system_clock` instead of `steady_clock`; a worker woken before the deadline checks `work_left` again after `join` has returned | while the clock is not set backwards (`c117_forward_partial`), without time limits (`c117_no_limit`); the budget always (`c117_budget`) |
| C118 | `c118_equal_false`, `c118_below_false` | the mean is the sum of the returns times a rounded `1/n` | up to rounding errors (`c118_equal_partial`, `c118_accurate`) |
| C119 | `c119_null_false`, `c119_every_read_false`, `c119_documented_false` | `set_new_env` does not test its arguments, the constructor does; the documented default root node is not made | as long as `set_new_env` gets no null pointer (`c119_no_null_partial`) |
| C69 | `c69_ments_false` | a new node that is not a leaf has no backups yet and is skipped by `MentsCNode::backup_soft` | DP values; soft values with mcts mode off |

The exact theorem names are in `MANIFEST.json`.

## 5. Status and notes

`MANIFEST.json` is generated from the theorem names and is authoritative. Properties not in it are still open.
