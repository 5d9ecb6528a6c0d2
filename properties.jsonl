{"id": "C01", "title": "Trial budget is never exceeded", "statement": "Between two calls of run_trials, the pool starts at most max_trials trials (none if max_trials <= 0), no matter how many worker threads there are, how they are scheduled, which spurious wake-ups occur and what the clock reads.", "quantifier": "every number of threads, every max_trials/max_time, every interleaving of workers, client calls, clock ticks and spurious wake-ups", "why_tests_cant": "A test runs a handful of schedules; an off-by-one in the budget under contention shows only under rare interleavings.", "anchors": ["src/thts.cpp: ThtsPool::worker_fn, ThtsPool::work_left, ThtsPool::run_trials"]}
{"id": "C02", "title": "A blocking run completes exactly the requested number of trials", "statement": "If the time limit is not reached, then when run_trials(n) with blocking=true (or a later join()) returns, exactly max(n,0) trials have been started since that run_trials call and all of them have completed.", "quantifier": "every n, every thread count, every schedule in which the deadline has not passed", "why_tests_cant": "Lost or duplicated trials depend on the interleaving of lock, wait and notify operations.", "anchors": ["src/thts.cpp: ThtsPool::run_trials, ThtsPool::join, ThtsPool::worker_fn"]}
{"id": "C03", "title": "join() returns only when the pool is quiescent", "statement": "When join() returns there is no trial in progress on any worker, and no worker starts another trial until run_trials is called again.", "quantifier": "every reachable state and every schedule, including time-limited runs and non-blocking runs joined later", "why_tests_cant": "The window between a worker finishing and the client waking is a scheduling artefact no test controls.", "anchors": ["src/thts.cpp: ThtsPool::join, ThtsPool::worker_fn"]}
{"id": "C04", "title": "A blocking run always returns", "statement": "A call of run_trials with blocking=true, or join(), never waits forever: provided each individual trial terminates and the scheduler keeps running enabled threads, the call returns.", "quantifier": "every schedule, every thread count >= 1, every trial budget, with and without a time limit", "why_tests_cant": "A lost wake-up needs one particular interleaving; a test that hangs once in a million runs looks green.", "anchors": ["src/thts.cpp: ThtsPool::join, ThtsPool::worker_fn, ThtsPool::work_left"]}
{"id": "C05", "title": "Destroying the pool terminates", "statement": "Destroying a ThtsPool from any state (idle, mid-search, time-limited, before the workers have even started) always terminates: every worker exits, each after finishing at most the trial it is in the middle of.", "quantifier": "every reachable state at which the destructor is called and every schedule afterwards", "why_tests_cant": "Requires considering the destructor racing with every possible worker position.", "anchors": ["src/thts.cpp: ThtsPool::~ThtsPool, ThtsPool::worker_fn"]}
{"id": "C06", "title": "The root is never replaced under a running trial", "statement": "set_new_env either throws or replaces the manager/root/logger at a moment when no trial is in progress, so no trial ever observes two different roots.", "quantifier": "every schedule and every point at which set_new_env may be called", "why_tests_cant": "The dangerous window (budget exhausted but last trials still running) is invisible to sequential tests.", "anchors": ["src/thts.cpp: ThtsPool::set_new_env, ThtsPool::run_selection_phase, ThtsPool::run_thts_trial"]}
{"id": "C07", "title": "At most num_threads trials run at once", "statement": "At every moment the number of trials in progress is at most num_threads, and the internal busy counter equals the number of workers that are between picking up a trial and reporting back.", "quantifier": "every reachable state of the pool under every schedule", "why_tests_cant": "A counter drifting by one under a rare interleaving breaks join() much later.", "anchors": ["src/thts.cpp: ThtsPool::worker_fn, num_threads_working"]}
{"id": "C08", "title": "Every trial is a genuine trajectory of the tree", "statement": "Each trial starts at the root and alternately follows the selected action and the sampled observation through existing child nodes; the list of rewards it records is the environment's reward for each (state, action, observation) step in order, followed by the heuristic value of the last decision node.", "quantifier": "every algorithm plugged into the schema, every environment, every interleaving of workers, every sequence of random choices", "why_tests_cant": "Trajectories are data dependent and other workers grow the tree concurrently.", "anchors": ["src/thts.cpp: ThtsPool::run_selection_phase"]}
{"id": "C09", "title": "The depth limit and sink states are respected", "statement": "No decision node with depth greater than max_depth (relative to a root of depth at most max_depth) is ever created, no node for a sink state or at max_depth ever gets a child, and every trial makes at most max_depth action selections.", "quantifier": "every environment, algorithm, schedule and random choice", "why_tests_cant": "Off-by-one depth errors only appear at the boundary and for unusual root depths.", "anchors": ["src/thts.cpp: ThtsPool::should_continue_selection_phase", "src/thts_decision_node.cpp: ThtsDNode::is_leaf"]}
{"id": "C10", "title": "Where a trial stops", "statement": "A trial stops exactly at the first decision node that is a leaf or, in mcts_mode, right after the first step that added a child to the chance node it went through; with mcts_mode off it always runs to a leaf.", "quantifier": "every trial in every schedule", "why_tests_cant": "Needs reasoning over all trajectories and concurrent tree growth.", "anchors": ["src/thts.cpp: ThtsPool::should_continue_selection_phase, ThtsPool::run_selection_phase"]}
{"id": "C11", "title": "mcts_mode grows the tree by at most one decision node per trial", "statement": "In mcts_mode the number of decision nodes in the tree is at most one (the root) plus the number of trials started, whatever the number of threads; with the transposition table off each trial adds at most one.", "quantifier": "every schedule, thread count and environment", "why_tests_cant": "Concurrent trials expanding the same chance node could double count.", "anchors": ["src/thts.cpp: ThtsPool::run_selection_phase", "src/thts_chance_node.cpp: ThtsCNode::create_child_node_itfc"]}
{"id": "C12", "title": "Backup receives the right rewards, bottom-up", "statement": "For a trial with rewards r0..rn and final heuristic value h, backup is called exactly once on every (decision node, chance node) pair of the trial, deepest first and chance node before decision node, and the call for the i-th pair gets rewards_before=[r0..r(i-1)], rewards_after=[h,rn,..,ri], return_after = sum of rewards_after and total_return = sum of all rewards.", "quantifier": "every trial length including zero, every reward sequence", "why_tests_cant": "The index arithmetic has to be right for every length.", "anchors": ["src/thts.cpp: ThtsPool::run_backup_phase"]}
{"id": "C13", "title": "Visit counts account for every trial", "statement": "When the pool is quiescent, the root has been visited once per trial; every decision node's visits equal the trials that ended there plus the visits of its child chance nodes; and (transposition table off) every chance node's visits equal the sum of the visits of its child decision nodes (visits counted since construction).", "quantifier": "every schedule, thread count, algorithm and environment", "why_tests_cant": "Flow conservation is a global property over all nodes and all schedules.", "anchors": ["src/thts.cpp: ThtsPool::run_selection_phase", "src/thts_decision_node.cpp: ThtsDNode::visit_itfc", "src/thts_chance_node.cpp: ThtsCNode::visit_itfc"]}
{"id": "C14", "title": "Tree structure: depth, timestep and state of children are consistent", "statement": "In every reachable state a chance node has its parent decision node's state, depth and timestep and the action it is stored under; a child decision node of a chance node has the observation it is stored under as its state and depth and timestep one larger than the chance node's; the node graph contains no cycles.", "quantifier": "every reachable tree under every schedule, with and without the transposition table", "why_tests_cant": "Holds for all trees, not for a sampled one.", "anchors": ["src/algorithms/uct/uct_chance_node.cpp: create_child_node_helper", "src/algorithms/uct/uct_decision_node.cpp: create_child_node_helper", "src/algorithms/ments/ments_chance_node.cpp: create_child_node_helper", "src/thts_decision_node.cpp, src/thts_chance_node.cpp: create_child_node_itfc"]}
{"id": "C15", "title": "Children are created once and never lost", "statement": "create_child_node is idempotent: calling it for an existing key returns the same node and changes nothing; each key has at most one child; once a child exists for a key, every later lookup of that key returns that same node.", "quantifier": "every sequence of operations by every worker", "why_tests_cant": "Requires all histories, including two workers racing to create the same child.", "anchors": ["src/thts_decision_node.cpp: ThtsDNode::create_child_node_itfc", "src/thts_chance_node.cpp: ThtsCNode::create_child_node_itfc"]}
{"id": "C16", "title": "Players alternate", "statement": "In a two player game a decision node and all its chance nodes belong to the opponent exactly when its timestep is odd, so ownership strictly alternates along every path; in a single player game no node is an opponent node.", "quantifier": "every reachable tree and every root timestep, including negative ones", "why_tests_cant": "Parity must hold at every depth.", "anchors": ["src/thts_decision_node.cpp: ThtsDNode::is_opponent", "src/thts_chance_node.cpp: ThtsCNode::is_opponent"]}
{"id": "C17", "title": "Sink nodes are worth zero", "statement": "The heuristic value of a node for a sink state is 0 for every heuristic function, and for a non-sink state it is the heuristic function's value (0 when there is none); hence a trial ending at a sink has return equal to its environment rewards.", "quantifier": "every heuristic, environment and state", "why_tests_cant": "Quantifies over all heuristics.", "anchors": ["src/thts_decision_node.cpp: ThtsDNode::ThtsDNode"]}
{"id": "C18", "title": "Transposition table: one node per (timestep, observation)", "statement": "With the transposition table on, any two chance nodes at the same timestep whose children maps contain equal observations point to the same decision node, and different (timestep, observation) pairs have different nodes, under every schedule.", "quantifier": "every schedule, environment and algorithm", "why_tests_cant": "Two workers racing to create the same state is the interesting case.", "anchors": ["src/thts_chance_node.cpp: ThtsCNode::create_child_node_itfc"]}
{"id": "C19", "title": "Transposition table lookups never fail", "statement": "Looking up a state in the transposition table never raises an error or touches memory out of bounds, whatever the history of trees built with the manager and whatever the configured number of table mutexes.", "quantifier": "every manager configuration and every history of roots sharing a manager", "why_tests_cant": "Depends on object lifetimes across several searches.", "anchors": ["src/thts_chance_node.cpp: ThtsCNode::create_child_node_itfc", "include/thts_manager.h: ThtsManager::dmap_mutexes"]}
{"id": "C20", "title": "Node locking never deadlocks", "statement": "Worker threads running trials, which lock a node and then its children, the transposition mutexes and the random number generator, never deadlock.", "quantifier": "every schedule, number of threads and tree shape, with and without the transposition table", "why_tests_cant": "Deadlock needs a particular interleaving.", "anchors": ["src/thts.cpp: run_selection_phase, run_backup_phase, try_log", "src/thts_decision_node.cpp: lock_all_children", "include/algorithms/common/dp_decision_node.h: backup_dp"]}
{"id": "C21", "title": "Random integers are in range and (nearly) uniform", "statement": "get_rand_int(lo,hi) with lo<hi always returns a value in [lo,hi); every value of the range is produced by some generator output, and the numbers of generator outputs producing two different values differ by at most one. With lo>=hi there is no value to return (lo==hi divides by zero).", "quantifier": "every lo, hi and every generator output in [0,RAND_MAX]", "why_tests_cant": "All bounds and all generator outputs.", "anchors": ["include/thts_manager.h: RandManager::get_rand_int"]}
{"id": "C22", "title": "Best-key selection returns a maximiser", "statement": "get_max_key_break_ties_randomly returns a key whose value is maximal in the map; every maximal key is returned for some random number; the result does not depend on values of non-maximal keys; on an empty map, or one with all values -infinity, there is nothing to return and the call has undefined behaviour.", "quantifier": "every non-empty map in every iteration order, every random number", "why_tests_cant": "All maps and all tie patterns.", "anchors": ["src/helper_templates.cc: get_max_key_break_ties_randomly"]}
{"id": "C23", "title": "Sampling a normalised distribution is inverse-CDF sampling", "statement": "For a distribution whose weights are non-negative and sum to one, sample_from_distribution with a uniform draw u in [0,1) returns the unique key whose cumulative interval contains u, so each key is returned on a set of draws of length equal to its weight, a zero-weight key is never returned, and no exception is thrown.", "quantifier": "every distribution, every iteration order of the map, every draw u in [0,1)", "why_tests_cant": "All distributions and all real draws.", "anchors": ["src/helper_templates.cc: sample_from_distribution"]}
{"id": "C24", "title": "Sampling unnormalised weights is proportional", "statement": "With normalised=false and non-negative weights of positive sum, sample_from_distribution returns each key with probability weight/sum and never throws.", "quantifier": "every non-negative weight map with positive sum, every draw u in [0,1)", "why_tests_cant": "All weight scales, in particular sums below one.", "anchors": ["src/helper_templates.cc: sample_from_distribution", "src/distributions/categorical_distribution.cc: CategoricalDistribution::sample"]}
{"id": "C25", "title": "Alias table represents exactly the distribution", "statement": "After constructing a CategoricalDistribution with the alias method, sampling returns every key with probability weight/sum exactly (in exact arithmetic), for every non-negative weight map with positive sum.", "quantifier": "every finite weight map of every size", "why_tests_cant": "The table-building loop must be right for every size and every weight vector.", "anchors": ["src/distributions/categorical_distribution.cc: construct_alias_table, reconstruct_alias_table, sample"]}
{"id": "C26", "title": "Updating a categorical distribution takes effect", "statement": "After update(key,weight) (with rebuild frequency one) or update(new_distribution), samples follow the new weights and sampling never reads outside the table.", "quantifier": "every sequence of updates, including ones that add keys or change the size", "why_tests_cant": "History dependent: only size-changing sequences expose stale tables.", "anchors": ["src/distributions/categorical_distribution.cc: CategoricalDistribution::update"]}
{"id": "C27", "title": "UCT values are exact averages of the observed returns", "statement": "For every node of a UCT tree, under every schedule, avg_return equals (pseudo_trials*heuristic + sum of the returns-after-node of the trials backed up through it) / (pseudo_trials + number of those trials), and num_backups is that denominator; the heuristic has no influence when pseudo_trials is 0.", "quantifier": "every schedule, every sequence of returns, every node", "why_tests_cant": "The running mean recurrence must telescope for every history.", "anchors": ["src/algorithms/uct/uct_decision_node.cpp: UctDNode::backup_average_return, UctDNode::UctDNode", "src/algorithms/uct/uct_chance_node.cpp: UctCNode::backup_average_return"]}
{"id": "C28", "title": "UCT tries every action before repeating one", "statement": "Without a prior policy and without epsilon exploration, at every UCT decision node, under every schedule, an action that already has a child is selected only after every valid action has a child.", "quantifier": "every schedule, every node, every random choice", "why_tests_cant": "Concurrent selections at the same node.", "anchors": ["src/algorithms/uct/uct_decision_node.cpp: UctDNode::select_action_ucb"]}
{"id": "C29", "title": "UCT selects a maximiser of the UCB formula", "statement": "When every action has a child (or a prior is set), the selected action maximises opp*avg_return(a) + prior(a)*bias*sqrt(log N / n(a)), where N and n(a) are clamped below at 1, opp is -1 at opponent nodes, prior(a)=1 without prior, and the automatic bias is max(0.001, max_a |avg_return(a)|); the chosen child exists afterwards. PUCT uses N^p/n(a) instead of the square root term.", "quantifier": "every node state, visit counts including zero, every prior, both players", "why_tests_cant": "All node states.", "anchors": ["src/algorithms/uct/uct_decision_node.cpp: compute_ucb_term, fill_ucb_values, select_action_ucb", "src/algorithms/uct/puct_decision_node.cpp: compute_ucb_term"]}
{"id": "C30", "title": "UCT recommendations are best children", "statement": "recommend_action returns a valid action; if the node has children it is one with maximal visit count (recommend_most_visited) or maximal opp*avg_return; it never recommends an untried action when some action was tried.", "quantifier": "every node state, both players, every random tie break", "why_tests_cant": "All node states and ties.", "anchors": ["src/algorithms/uct/uct_decision_node.cpp: recommend_action_best_empirical, recommend_action_most_visited"]}
{"id": "C31", "title": "MENTS search policy is a probability distribution", "statement": "For every node with at least one visit and at least one action, positive temperature, epsilon >= 0, max_explore_prob in [0,1] (and prior weight w with w <= log 4 and a prior that is a distribution), the action probabilities computed by MENTS are non-negative, sum to one before near-zero entries are dropped, and every action has probability at least lambda/|A| with lambda = min(epsilon/log(N+1), max_explore_prob); after dropping entries below 1e-16 the rest are all positive and sum to at least 1-|A|*1e-16.", "quantifier": "all Q-values, temperatures, visit counts, priors and numbers of actions", "why_tests_cant": "Real-valued inequality over all parameters.", "anchors": ["src/algorithms/ments/ments_decision_node.cpp: compute_action_weights, compute_action_distribution"]}
{"id": "C32", "title": "Soft backup is the log-sum-exp", "statement": "The MENTS backup sets the soft value to opp*temp*log(sum_a exp(opp*Q(a)/temp)), independently of the stabilising normalisation term, and it lies between the best child value and the best child value plus temp*log|A| (mirrored for the opponent).", "quantifier": "all Q-values, all positive temperatures, all action counts, both players", "why_tests_cant": "Real-valued identity over all inputs.", "anchors": ["src/algorithms/ments/ments_decision_node.cpp: backup_soft, compute_action_weights"]}
{"id": "C33", "title": "Chance node backups are backup-weighted means", "statement": "The soft/DP/entropy backup of a chance node equals local reward (not for entropy) plus the mean of its children's values weighted by their backup counts, ignoring children with zero backups, independently of the iteration order of the children; with no backed-up child it is the local reward.", "quantifier": "all child value/count lists in all orders", "why_tests_cant": "All child lists and all hash-map orders.", "anchors": ["src/algorithms/ments/ments_chance_node.cpp: backup_soft", "src/algorithms/common/dp_chance_node.cpp: backup_dp_impl", "src/algorithms/common/ent_chance_node.cpp: backup_ent_impl"]}
{"id": "C34", "title": "Pseudo Q-values from a prior are centred", "statement": "With shift_pseudo_q_values the pseudo Q-values given to untried actions have mean psuedo_q_value_offset.", "quantifier": "every prior policy", "why_tests_cant": "All priors with at least two actions.", "anchors": ["src/algorithms/ments/ments_decision_node.cpp: MentsDNode::MentsDNode (lines 45-60)"]}
{"id": "C35", "title": "Temperature decay functions are valid", "statement": "Each built-in decay function f satisfies f(0)=1, is positive and antitone on non-negative arguments and tends to 0; the decayed temperature is antitone in the number of visits, at most max(init,min) and at least the configured minimum, hence positive whenever the minimum is.", "quantifier": "all visit counts, scales >= 0, initial and minimum temperatures", "why_tests_cant": "Real-valued claims over all arguments, and a limit.", "anchors": ["src/algorithms/common/decaying_temp.cpp"]}
{"id": "C36", "title": "MENTS selection always yields a valid action", "statement": "For a well-formed configuration, MENTS action selection returns one of the valid actions and afterwards the node has a child for it; it fails only on draws in the removed tail of mass at most |A|*1e-16.", "quantifier": "all node states with at least one action, all draws in [0,1)", "why_tests_cant": "All draws.", "anchors": ["src/algorithms/ments/ments_decision_node.cpp: select_action_ments", "src/helper_templates.cc: sample_from_distribution"]}
{"id": "C37", "title": "MENTS recommendations respect the visit threshold", "statement": "recommend_action returns a valid action; if some tried action has at least recommend_visit_threshold visits, it recommends one of those with maximal (opponent-adjusted) value among them, otherwise one with maximal value among all actions; with recommend_most_visited the most visited child.", "quantifier": "all node states, thresholds and tie breaks", "why_tests_cant": "All node states.", "anchors": ["src/algorithms/ments/ments_decision_node.cpp: recommend_action_best_soft_value, recommend_action_most_visited", "src/algorithms/common/dp_decision_node.cpp: recommend_action_best_dp_value_impl", "src/algorithms/common/emp_node.cpp: recommend_action_best_emp_value_impl"]}
{"id": "C38", "title": "DP backup is the max (min for the opponent) over backed-up children", "statement": "After a DP backup a decision node's value is the maximum (minimum at opponent nodes) of the values of its children that have been backed up; during a search it is always finite, because the child on the trial's path has been backed up before its parent, under every schedule.", "quantifier": "all child lists in all orders, both players; every schedule", "why_tests_cant": "Finite value in every interleaving.", "anchors": ["src/algorithms/common/dp_decision_node.cpp: backup_dp_impl", "src/thts.cpp: run_backup_phase"]}
{"id": "C39", "title": "Values stay Bellman consistent in single-threaded search", "statement": "With one worker and no transposition table, between trials every decision node that has been backed up satisfies V = max_a Q(a) (min for the opponent) over its backed-up children and every chance node that has been backed up satisfies Q = R + backup-weighted mean of V over its children.", "quantifier": "every environment, every sequence of trials and random choices", "why_tests_cant": "Inductive invariant over the whole tree after any number of trials.", "anchors": ["src/algorithms/common/dp_decision_node.cpp, dp_chance_node.cpp", "src/thts.cpp: run_backup_phase"]}
{"id": "C40", "title": "Value estimates stay within the range of achievable returns", "statement": "If all rewards and heuristic values lie in [lo,hi], every UCT average return and every DP value in the tree lies within the corresponding bounds for the remaining depth, under every schedule.", "quantifier": "every schedule, environment, node", "why_tests_cant": "Global invariant.", "anchors": ["src/algorithms/uct/uct_decision_node.cpp", "src/algorithms/common/dp_decision_node.cpp", "src/algorithms/common/emp_node.cpp"]}
{"id": "C41", "title": "Entropy backups compute the policy entropy", "statement": "The local entropy of a decision node is -sum p log p, lies in [0, log|A|] for a probability distribution, and the subtree entropy is opp*local + sum_a policy(a)*child entropy (independent of order); in a single player game subtree entropies are never negative.", "quantifier": "all policies and child entropies", "why_tests_cant": "Real-valued inequality.", "anchors": ["src/algorithms/common/ent_decision_node.cpp: backup_ent_impl", "src/algorithms/common/ent_chance_node.cpp: backup_ent_impl"]}
{"id": "C42", "title": "DENTS and EST soft Q-values", "statement": "DENTS uses opp*(V + value_temp*H) for tried actions, with a value temperature that decays to the configured minimum; with entropy weight zero it agrees with EST, which uses opp*V; both agree with MENTS on untried actions.", "quantifier": "all node states, both players, dp or empirical values", "why_tests_cant": "All node states.", "anchors": ["src/algorithms/ments/dents/dents_decision_node.cpp: get_soft_q_value, get_value_temp", "src/algorithms/est/est_decision_node.cpp: get_soft_q_value"]}
{"id": "C43", "title": "TENTS bookkeeping maps stay consistent", "statement": "At every TENTS node the ordered value->action map and the action->value map always describe the same set of pairs with exactly one entry per valid action, and updating an action never throws, under every sequence of backups.", "quantifier": "every sequence of updates with any values, including ties", "why_tests_cant": "Ties between equal values are the tricky case.", "anchors": ["src/algorithms/ments/tents/tents_decision_node.cpp: TentsDNode::TentsDNode, update_maps, backup_update_map"]}
{"id": "C44", "title": "TENTS policy is the sparsemax and its value is spmax", "statement": "The sparse action set is a non-empty top-k set in decreasing value; when the stored values are current, the TENTS weights are max(q/temp - threshold, 0) and sum to one; the TENTS value spmax lies between max q/temp and max q/temp + 1/2.", "quantifier": "all value vectors and temperatures", "why_tests_cant": "Real-valued identities over all inputs.", "anchors": ["src/algorithms/ments/tents/tents_decision_node.cpp: get_sparse_action_set, spmax, compute_action_weights"]}
{"id": "C45", "title": "RENTS always finds its parent's policy", "statement": "During a trial started at a root of depth zero, every RENTS node that selects an action or is backed up finds the action distribution its parent computed in the same trial; actions missing from it get weight zero; if all weights vanish the policy is uniform.", "quantifier": "every trial, path and depth", "why_tests_cant": "Holds for all paths and depths.", "anchors": ["src/algorithms/ments/rents/rents_decision_node.cpp", "src/thts_env_context.cpp"]}
{"id": "C46", "title": "EvalPolicy follows the tree while it can", "statement": "After reset and a sequence of steps, the evaluation policy is at the node reached by that sequence of (action, observation) pairs if it exists and otherwise, from the first missing step on, acts uniformly at random until the next reset; a copy starts at the root.", "quantifier": "every step sequence and every tree", "why_tests_cant": "All step sequences.", "anchors": ["src/mc_eval.cpp: EvalPolicy"]}
{"id": "C47", "title": "run_rollouts runs exactly the requested number of rollouts", "statement": "run_rollouts(n, t) with t>=1 threads adds exactly n returns to the evaluator, under every interleaving of the threads, each rollout being run by exactly one thread.", "quantifier": "every n, every t >= 1, every interleaving", "why_tests_cant": "All n,t and schedules.", "anchors": ["src/mc_eval.cpp: MCEvaluator::thread_run_rollouts, run_rollouts"]}
{"id": "C48", "title": "Rollouts stop at max_trial_length", "statement": "A rollout takes at most max_trial_length actions.", "quantifier": "every environment and policy", "why_tests_cant": "Environments without sinks.", "anchors": ["src/mc_eval.cpp: MCEvaluator::run_rollout"]}
{"id": "C49", "title": "Mean and standard deviation of returns", "statement": "get_mean_return is the arithmetic mean of the sampled returns and get_stddev_return is their sample standard deviation.", "quantifier": "every non-empty (resp. size >= 2) list of returns", "why_tests_cant": "All lists.", "anchors": ["src/mc_eval.cpp: MCEvaluator::get_mean_return, get_stddev_return"]}
{"id": "C50", "title": "Trial-based logging frequency", "statement": "With a trials delta d >= 1 (and no runtime delta), the logger asks for an entry exactly after every d-th completed trial of each run.", "quantifier": "every d, every number of trials and runs", "why_tests_cant": "Multi-run histories.", "anchors": ["src/thts_logger.cpp: should_log, trial_completed, reset_start_time", "src/thts.cpp: try_log, run_trials"]}
{"id": "C51", "title": "Logged runtime accumulates over runs", "statement": "After each completed run_trials call the logger's prior runtime has grown by the duration of that run.", "quantifier": "every sequence of runs", "why_tests_cant": "Needs at least two runs.", "anchors": ["src/thts.cpp: ThtsPool::try_log", "src/thts_logger.cpp: update_prior_runtime, get_current_total_runtime"]}
{"id": "C52", "title": "The trial context is two independent maps", "statement": "Context values behave like a map: a get returns the last put for that key since the last erase and throws if there is none; const and non-const entries never affect each other.", "quantifier": "every operation sequence", "why_tests_cant": "All histories.", "anchors": ["src/thts_env_context.cpp"]}
{"id": "C53", "title": "Pretty printing is depth limited and well bracketed", "statement": "Printing a decision node with depth k shows exactly the nodes reachable in at most k actions, each exactly once, and the brackets are balanced.", "quantifier": "every tree and every k >= 0", "why_tests_cant": "All trees.", "anchors": ["src/thts_decision_node.cpp: get_pretty_print_string_helper", "src/thts_chance_node.cpp: get_pretty_print_string_helper"]}
{"id": "C54", "title": "Equality and hashing of keys agree", "statement": "For the built-in state/action types and transposition keys, equality is an equivalence relation and equal keys have equal hashes, so hash maps keyed by them behave as maps keyed by value; keys of different types are never equal.", "quantifier": "all values of all built-in types", "why_tests_cant": "All pairs of values.", "anchors": ["src/thts_types.cpp", "src/helper_templates.cc: hash_combine"]}
{"id": "C55", "title": "More likely actions get larger pseudo Q-values", "statement": "The pseudo Q-value MENTS gives to an untried action is monotone in the action's prior probability.", "quantifier": "every prior policy and every pair of actions", "why_tests_cant": "All pairs of probabilities, including tiny ones.", "anchors": ["src/algorithms/ments/ments_decision_node.cpp: get_soft_q_value (lines 114-122), MentsDNode::MentsDNode"]}
{"id": "C56", "title": "Average returns of DENTS and EST are means of the observed returns", "statement": "With DP values switched off, the value a DENTS or EST node uses is the arithmetic mean of the returns the trials that finished there observed below it (with the heuristic and pseudo trials counted as the documentation says), whatever the interleaving of the workers.", "quantifier": "every environment, any number of workers and every schedule", "why_tests_cant": "All interleavings of concurrent updates.", "anchors": ["include/algorithms/common/emp_node.h", "src/algorithms/common/emp_node.cpp", "src/algorithms/ments/dents/dents_decision_node.cpp: backup_dents"]}
{"id": "C57", "title": "DENTS never fails to select an action", "statement": "For every allowed exploration parameter epsilon >= 0, all entropies DENTS computes are numbers and every decision node that has been visited can select an action.", "quantifier": "every environment, configuration, number of workers and schedule", "why_tests_cant": "The failure needs a particular parameter and a particular order of visits.", "anchors": ["src/algorithms/common/ent_decision_node.cpp", "src/algorithms/ments/dents/dents_decision_node.cpp"]}
{"id": "C58", "title": "TENTS samples from the sparsemax of the current Q-values", "statement": "Whenever TENTS selects an action, its weights are the sparsemax of the current Q-values over the current temperature.", "quantifier": "every environment, configuration, number of workers, schedule and point of the search", "why_tests_cant": "The sparse set comes from values stored at earlier backups; whether they are current depends on the temperature schedule and on the other threads.", "anchors": ["src/algorithms/ments/tents/tents_decision_node.cpp: get_sparse_action_set, compute_action_weights, backup"]}
{"id": "C59", "title": "Evaluation rollouts only take valid actions and never fail", "statement": "Evaluating a tree that a search built from the evaluation's initial state never throws, and every action taken is a valid action of a non-sink state; the node the policy follows always has the state the rollout is in.", "quantifier": "every tree of every reachable search state, every number of rollouts and threads, every interleaving and outcome", "why_tests_cant": "All trees, interleavings and random outcomes.", "anchors": ["src/mc_eval.cpp: EvalPolicy::get_action, MCEvaluator::run_rollout"]}
{"id": "C60", "title": "The context passed to the policy exists", "statement": "During a rollout the context object passed to recommend_action exists.", "quantifier": "every environment, rollout and step", "why_tests_cant": "Use after free is not reliably observable.", "anchors": ["src/mc_eval.cpp: MCEvaluator::run_rollout (line 90)", "src/thts_env.cpp: sample_context"]}
{"id": "C61", "title": "Runtime-based logging frequency", "statement": "With a runtime delta, the logger makes at most one entry per delta of total runtime.", "quantifier": "every delta, every schedule and number of runs", "why_tests_cant": "Needs several runs and all timings.", "anchors": ["src/thts_logger.cpp: should_log, reset_start_time, get_current_total_runtime"]}
{"id": "C62", "title": "Logged runtimes never decrease", "statement": "The runtimes of successive log entries never decrease.", "quantifier": "every schedule and sequence of runs", "why_tests_cant": "Needs several runs.", "anchors": ["src/thts_logger.cpp: log, update_prior_runtime", "src/thts.cpp: try_log"]}
{"id": "C63", "title": "Everything a logger records is written", "statement": "The output of the UCT, MENTS and DB-MENTS loggers has the documented columns (runtime, visits, backups, values) with the recorded values.", "quantifier": "every sequence of log calls and every recorded value", "why_tests_cant": "All recorded values.", "anchors": ["include/thts_logger.h: entries", "src/thts_logger.cpp: write_to_ostream", "src/algorithms/uct/uct_logger.cpp", "src/algorithms/ments/ments_logger.cpp", "src/algorithms/ments/dbments_logger.cpp"]}
{"id": "C64", "title": "A finished run_trials has run every trial completely", "statement": "When run_trials calls are made one at a time without time limit, then after each returns the root has been visited exactly once per trial requested so far, every trial has been selected and backed up completely, and nothing is in progress; with time limits the same holds for the trials started.", "quantifier": "every environment, algorithm, number of worker threads, sequence of calls and interleaving of pool and search steps", "why_tests_cant": "Interleavings of the pool protocol with the steps of the trials.", "anchors": ["src/thts.cpp: run_trials, worker_fn, run_thts_trial, run_selection_phase, run_backup_phase"]}
{"id": "C65", "title": "Logged visit counts are truthful", "statement": "The number of visits in a log entry lies between the number of trials finished and the number started when it is made, never decreases from entry to entry and never exceeds the visits of the root.", "quantifier": "every environment, algorithm, number of worker threads, sequence of calls and interleaving", "why_tests_cant": "Other threads are in the middle of trials when an entry is made.", "anchors": ["src/thts.cpp: try_log", "src/thts_logger.cpp: log"]}
{"id": "C66", "title": "Finished DP values are the minimax value of the tree", "statement": "Whenever no trial is running, the DP value of a decision node (DB-MENTS, DENTS, EST) is the minimax value of the search tree below it: heuristic values at the frontier, the best child for the player to move at decision nodes, reward plus visit-weighted mean at chance nodes. So it does not depend on the order in which the workers' backups were done.", "quantifier": "every environment, algorithm with DP values, number of workers and schedule (no transposition table)", "why_tests_cant": "Backups of concurrent trials overwrite each other in any order.", "anchors": ["src/algorithms/common/dp_decision_node.cpp: backup_dp_impl", "src/algorithms/common/dp_chance_node.cpp: backup_dp_impl", "src/thts.cpp: run_backup_phase"]}
{"id": "C67", "title": "An exhausted search of a deterministic game is exact", "statement": "In a deterministic environment, once every action of every node within max_depth has been tried and no trial is running, the DP value of every node is the game's optimal (with an opponent: minimax) value over the remaining depth, and the action recommended by DP value is optimal.", "quantifier": "every deterministic environment, algorithm with DP values, number of workers and schedule (no transposition table)", "why_tests_cant": "All environments and all orders in which the tree can be explored.", "anchors": ["src/algorithms/common/dp_decision_node.cpp: backup_dp_impl, recommend_action_best_dp_value_impl", "src/thts_decision_node.cpp", "src/thts.cpp"]}
{"id": "C68", "title": "Finished MENTS values are the soft minimax value of the tree", "statement": "With a constant temperature, whenever no trial is running, the soft value of a decision node (MENTS, DB-MENTS) is the soft minimax value of the search tree below it, in whatever order the backups were done. In an exhausted search of a deterministic environment it is within temp*log(number of actions) per remaining move of the optimal (minimax) value, and the action recommended by soft value is within twice that of optimal.", "quantifier": "every environment, number of workers and schedule (no transposition table)", "why_tests_cant": "Backups of concurrent trials overwrite each other in any order; all games.", "anchors": ["src/algorithms/ments/ments_decision_node.cpp: backup_soft, recommend_action_best_soft_value", "src/algorithms/ments/ments_chance_node.cpp: backup_soft", "src/thts.cpp: run_backup_phase"]}
{"id": "C69", "title": "Action values lie between the values of the successors found", "statement": "Whenever no trial is running, the value of an action that has been tried is its reward plus something between the least and the largest value of the successor nodes found so far, which includes the heuristic values of new nodes.", "quantifier": "every environment, algorithm with DP or soft values, number of workers and schedule (no transposition table)", "why_tests_cant": "All trees and all orders of backups; the failing case needs a heuristic and mcts mode.", "anchors": ["src/algorithms/common/dp_chance_node.cpp: backup_dp_impl", "src/algorithms/ments/ments_chance_node.cpp: backup_soft", "src/algorithms/ments/ments_decision_node.cpp: visit"]}
{"id": "C70", "title": "The soft value a DENTS node shows is its estimate plus its weighted entropy", "statement": "In every state of a DENTS search the soft value a node prints is its value estimate (DP value or average return) plus a value temperature times its entropy, for every node that has been backed up; the temperature is the one of a visit count the node has had by now. With a constant temperature it is exactly estimate + temperature * entropy.", "quantifier": "every environment, configuration, number of workers and schedule", "why_tests_cant": "Concurrent visits change the temperature between a node's selection and its backup.", "anchors": ["src/algorithms/ments/dents/dents_decision_node.cpp: backup, get_pretty_print_val", "src/algorithms/ments/dents/dents_chance_node.cpp: backup"]}
{"id": "C71", "title": "Uniform and mixture distributions sample what they say", "statement": "Sampling a uniform distribution object returns one of its keys, every key can be drawn and the numbers of generator outputs drawing two keys differ by at most one. Sampling a mixture returns what one of its components returns, and it returns x with probability the weighted mean of the components' probabilities of x.", "quantifier": "every list of keys, every mixture (also nested) of any distributions, every draw", "why_tests_cant": "Probabilities over all draws and all mixtures.", "anchors": ["src/distributions/discrete_uniform_distribution.cc: sample", "src/distributions/mixed_distribution.cc: sample"]}
{"id": "C72", "title": "Default observations", "statement": "In a fully observable environment the sampled observation is the next state. In a partially observable one each observation is sampled with the probability that get_observation_distribution states; if the environment does not define that function, sampling throws rather than returning some observation.", "quantifier": "every environment, action, next state and draw", "why_tests_cant": "Probabilities over all draws and environments.", "anchors": ["src/thts_env.cpp: get_observation_distribution_itfc, sample_observation_distribution_itfc"]}
{"id": "C73", "title": "Monte-Carlo evaluation is unbiased", "statement": "The expectation of the mean return after run_rollouts is the expected return of the policy (recommendations of the tree while the rollout is in the tree, uniformly drawn actions afterwards) from the initial state until a sink state, for any number of threads and however they are scheduled.", "quantifier": "every tree, environment with bounded walks, number of rollouts and threads, scheduler (that may depend on everything drawn so far)", "why_tests_cant": "An expectation over all random choices, for all schedules.", "anchors": ["src/mc_eval.cpp: run_rollout, thread_run_rollouts, run_rollouts, get_mean_return"]}
{"id": "C74", "title": "A search never gets stuck and its trials finish", "statement": "In an environment in which every non-terminal state has an action and every action a successor, every worker can always go on with its trial: selection always finds an action, for UCT, PUCT, MENTS, DB-MENTS, EST, DENTS, TENTS and RENTS. A worker that is given 4D+4 turns (D the depth limit) completes a trial whatever the others do, and all running trials can always be finished.", "quantifier": "every environment, configuration, number of workers, schedule and reachable state", "why_tests_cant": "Absence of a stuck state over all schedules and trees.", "anchors": ["src/thts.cpp: run_thts_trial, run_selection_phase, run_backup_phase", "src/algorithms/*/: select_action", "src/thts_chance_node.cpp: create_child_node_itfc"]}
{"id": "C75", "title": "UCT and PUCT try every action again and again", "statement": "With bounded rewards, a positive (or automatic) bias, no epsilon exploration and a prior, if any, that is positive on the valid actions: for every number B there is a number N such that any node through which N trials have gone on has tried each of its actions at least B times, whatever the schedule, the threads and the random draws. In a deterministic environment every line of play within the depth limit is played B times after enough trials.", "quantifier": "every environment with bounded rewards, configuration as stated, number of threads, schedule, draws, node and B", "why_tests_cant": "A statement about the limit, uniform over all schedules and draws; the bounds grow faster than any test can run.", "anchors": ["src/algorithms/uct/uct_decision_node.cpp: compute_ucb_term, fill_ucb_values, select_action_ucb", "src/algorithms/uct/puct_decision_node.cpp: compute_ucb_term"]}
{"id": "C76", "title": "UCT and PUCT solve deterministic games", "statement": "In a deterministic one- or two-player environment with bounded rewards, searched without transposition table by UCT, or PUCT with a power between 0 and 1, under the conditions of C75: for every accuracy there is a number of trials after which the values of the root and of its actions are within that accuracy of the minimax value of the game up to the depth limit, suboptimal actions get an arbitrarily small share of the selections, and the recommended action (best average or most visited) is optimal. The number of trials does not depend on the schedule or on the random draws.", "quantifier": "every deterministic environment, configuration as stated, number of threads, schedule and draws", "why_tests_cant": "Convergence for all schedules; a test sees finitely many trials of finitely many schedules.", "anchors": ["src/algorithms/uct/uct_decision_node.cpp: select_action, recommend_action, backup", "src/algorithms/uct/uct_chance_node.cpp: backup", "src/thts.cpp: run_thts_trial, run_backup_phase"]}
{"id": "C77", "title": "A search with random exploration finds everything", "statement": "If every selection gives every valid action a probability of at least p (which MENTS, DB-MENTS, DENTS, EST and UCT/PUCT with a positive epsilon do), then, whatever the schedule of the threads, the probability that all N trials are over and some part of the game tree within the depth limit has not been found is at most an explicit bound that tends to 0 when the number of trials grows and p stays fixed. In a deterministic game DB-MENTS, DENTS and EST with DP values then have the exact value of the game at the root and recommend an optimal move, and MENTS is within temperature times log of the branching factor per move of it, with at least the complementary probability.", "quantifier": "every environment with finitely many actions and outcomes, number of trials and threads, every scheduler that may look at the history, configurations as stated", "why_tests_cant": "A statement about probabilities over all random draws, for every schedule.", "anchors": ["src/algorithms/ments/ments_decision_node.cpp: select_action, compute_action_distribution", "src/algorithms/ments/dents/dents_decision_node.cpp", "src/algorithms/est/est_decision_node.cpp", "src/algorithms/uct/uct_decision_node.cpp: select_action", "src/thts.cpp: run_thts_trial"]}
{"id": "C78", "title": "No data races inside the search", "statement": "While trials run, no two threads access the visit counts, children or values of the same node, or the transposition table, at the same time with one of them writing, whatever the schedule and the algorithm, if there is no table or the table has one mutex. With several table mutexes only the table can be raced on.", "quantifier": "every schedule at the granularity of single lock operations and memory accesses, environment, algorithm, number of threads", "why_tests_cant": "Interleavings of single accesses; a race may never show up in a test run.", "anchors": ["src/thts.cpp: run_selection_phase, run_backup_phase", "src/thts_decision_node.cpp: lock_all_children, create_child_node_itfc", "src/thts_chance_node.cpp: lock_all_children, create_child_node_itfc"]}
{"id": "C79", "title": "Visits, selections and backups are atomic", "statement": "With threads interleaved at single lock operations and memory accesses, whenever no thread is inside a visit, selection or backup, the tree, the values and the history are such as could have arisen by executing whole visits, selections and backups one after the other, and a crash is one that could have happened so. So everything proved about searches that execute whole blocks holds of the interleaved program. This holds for UCT, PUCT, MENTS, RENTS, TENTS and EST; for DB-MENTS and DENTS it holds separately of the tree, the soft values, the DP values and the empirical averages.", "quantifier": "every schedule at the granularity of single lock operations and memory accesses, environment, configuration, number of threads", "why_tests_cant": "Linearisability over all interleavings; a torn backup changes a value silently.", "anchors": ["src/thts.cpp: run_selection_phase, run_backup_phase", "src/thts_decision_node.cpp: lock_all_children", "src/thts_chance_node.cpp: lock_all_children", "src/algorithms/*/: select_action, backup", "src/algorithms/ments/dbments_chance_node.cpp: backup"]}
{"id": "C80", "title": "The locks neither block the search nor lose behaviours", "statement": "With threads interleaved at single lock operations and memory accesses and without transposition table: as long as a trial is running some thread can take a step, threads wait for a mutex only while some thread inside a visit, selection or backup does not wait, from every state all trials can be finished, and under every schedule the running trials come to an end if no new ones begin. UCT and PUCT have this also with a table that has one mutex. Every run of whole visits, selections and backups can also happen with the locks, so nothing that is exhibited of the search disappears through locking.", "quantifier": "every schedule at the granularity of single lock operations and memory accesses, environment, configuration, number of threads", "why_tests_cant": "Deadlock freedom and termination over all interleavings; a deadlock needs an unlucky schedule.", "anchors": ["src/thts.cpp: run_thts_trial, run_selection_phase, run_backup_phase", "src/thts_decision_node.cpp: lock_all_children", "src/thts_chance_node.cpp: lock_all_children, create_child_node_itfc", "src/algorithms/*/: select_action, backup"]}
{"id": "C81", "title": "Searching with the whole program comes to an end", "statement": "With worker threads, the thread pool's mutex and condition variable, the mutexes of the nodes and of the logger all interleaved at single lock operations, and no time limit: while a client is inside run_trials, join or the destructor some thread can always take a step, and under every fair schedule the call returns. When join returns, every trial that was started has been run to its end, the requested number of trials has been run, no thread is inside the tree or the logger and all mutexes are free. No thread holds the pool's mutex and another one; the logger's mutex is held together with at most the root's. The logger counts every trial once, and the number of visits in an entry of the log lies between the trials completed and the trials begun at that time. Termination holds for UCT and PUCT with or without the transposition table (one mutex), and for the other algorithms without the table; with the table, run_trials of those can hang for ever. The logger's run size is written without the logger's mutex, so calling run_trials while an earlier run is going on is a data race.", "quantifier": "every schedule at the granularity of single lock operations and memory accesses, environment, configuration, number of threads, logger, sequence of client calls", "why_tests_cant": "Liveness of the whole program over all interleavings of five kinds of mutexes.", "anchors": ["src/thts.cpp: worker_fn, run_thts_trial, try_log, join, run_trials, work_left, ~ThtsPool", "src/thts_decision_node.cpp: lock_all_children", "src/thts_chance_node.cpp: lock_all_children", "src/thts_logger.cpp: should_log, log"]}
{"id": "C82", "title": "Destroying a tree frees everything once and nothing that is needed", "statement": "However handles to nodes, the manager and the pool are released, a node stays alive exactly as long as it can be reached through children from a handle that somebody holds; every other node is destroyed, once, and no destroyed object is touched. When the last handle is gone, all nodes and the manager have been destroyed. A running trial keeps the nodes it works on. The transposition table keeps no node alive, so when one tree after the other is built with the same manager, each starts with a table of expired entries. Destruction succeeds whatever the depth of the tree, and a manager can be used for several trees.", "quantifier": "every reachable tree, set of handles, order of releasing them, stack size, sequence of trees built with one manager", "why_tests_cant": "All shapes of trees and sets of handles; leaks and stack overflows show up only in long runs or deep trees.", "anchors": ["include/thts_decision_node.h: thts_manager, parent, children, ~ThtsDNode", "include/thts_chance_node.h: thts_manager, parent, children, ~ThtsCNode", "include/thts.h: thts_manager, root_node", "include/thts_types.h: DNodeTable", "src/thts.cpp: run_selection_phase, run_backup_phase"]}
{"id": "C83", "title": "Sampling tolerates the rounding of probabilities", "statement": "Sampling from a distribution whose probabilities are floating-point numbers that sum to one up to the rounding of a few additions returns one of its keys for every random draw, with every key returned with its probability up to that rounding error. It does not throw.", "quantifier": "every distribution of IEEE double weights, iteration order and draw", "why_tests_cant": "Which sums round to what depends on every bit of the weights and on the iteration order of a hash table.", "anchors": ["src/helper_templates.cc: sample_from_distribution"]}
{"id": "C84", "title": "Average returns are accurate in floating point", "statement": "Computed with IEEE doubles, the return of a trial that is passed to a node's backup is the sum of the rewards after the node up to a rounding error proportional to the length of the trial, and the average return kept by UCT and by the empirical nodes is the average of the returns backed up, up to a rounding error proportional to the number of backups. The average never leaves an interval that contains all returns. The same mean computed by the Monte Carlo evaluator is accurate too.", "quantifier": "every sequence of IEEE double rewards and returns, number of backups", "why_tests_cant": "Rounding errors accumulate over unboundedly many backups.", "anchors": ["src/algorithms/uct/uct_decision_node.cpp: backup_average_return", "src/algorithms/uct/uct_chance_node.cpp: backup_average_return", "src/algorithms/common/emp_node.cpp: backup_emp", "src/thts.cpp: run_backup_phase", "src/mc_eval.cpp: get_mean_return"]}
{"id": "C85", "title": "MENTS selects an action whatever the values of its children", "statement": "Computed with IEEE doubles and any reasonable exp, the search policy of MENTS is the mixture of softmax and uniform policy up to rounding, and selecting an action returns an action of the node for every soft value of the children and random draw; it does not throw.", "quantifier": "every list of children's soft values, temperature, exploration probability, iteration order and draw; every exp with values in [0,1] for non-positive arguments", "why_tests_cant": "Failure needs a gap between soft values in a narrow window.", "anchors": ["src/algorithms/ments/ments_decision_node.cpp: compute_action_weights, compute_action_distribution, select_action_ments", "src/helper_templates.cc: sample_from_distribution"]}
{"id": "C86", "title": "Chance node values are accurate in floating point", "statement": "Computed with IEEE doubles, the soft and DP value of a chance node is the local reward plus the average of its children's values weighted by their backups, up to a rounding error proportional to the number of children. With one child that has value v it is exactly the local reward plus v, and the average never leaves the interval spanned by the children's values.", "quantifier": "every list of children with IEEE double values and any numbers of backups, iteration order", "why_tests_cant": "Rounding depends on every bit of the values and counts.", "anchors": ["src/algorithms/ments/ments_chance_node.cpp: backup_soft", "src/algorithms/common/dp_chance_node.cpp: backup_dp_impl"]}
{"id": "C87", "title": "MENTS values are accurate in floating point", "statement": "Computed with IEEE doubles and any exp and log of small relative error, the soft value of a MENTS node after a backup is temperature times the logarithm of the sum of the exponentials of its children's values over the temperature (negated for the opponent), up to a rounding error proportional to the number of actions and to the largest value.", "quantifier": "every list of children's soft values, temperature, player; every exp and log with the given accuracy", "why_tests_cant": "Rounding depends on every bit of the values, and on the library's exp and log.", "anchors": ["src/algorithms/ments/ments_decision_node.cpp: compute_action_weights, backup_soft"]}
{"id": "C88", "title": "TENTS works for values of any size", "statement": "Computed with IEEE doubles, the value of a TENTS node is the spmax of its children's values up to rounding, and it can always select an action.", "quantifier": "every list of children's values over the temperature, iteration order and draw", "why_tests_cant": "Failure needs values that are large compared to the temperature.", "anchors": ["src/algorithms/ments/tents/tents_decision_node.cpp: get_sparse_action_set, spmax, compute_action_weights"]}
{"id": "C89", "title": "The alias table tolerates rounding", "statement": "Built with IEEE doubles, an alias table represents its distribution up to a rounding error proportional to the number of outcomes: building it and sampling never read out of range, every threshold is in [0,1], the probability of each outcome is its weight divided by the sum of the weights up to that error, and an outcome of weight zero is never sampled.", "quantifier": "every list of non-negative IEEE double weights with a positive sum", "why_tests_cant": "Rounding decides which entries count as large or small, and what is left over.", "anchors": ["src/distributions/categorical_distribution.cc: construct_alias_table, reconstruct_alias_table, sample"]}
{"id": "C90", "title": "Searches of stochastic environments find the optimal values", "statement": "In a stochastic environment (known finite transition probabilities, one or two players) a search with dynamic programming backups that explores finds the value of the game: for every accuracy and every failure probability there is a number of trials from which on the value of the root is that close to the expected value under optimal play, and the recommended action that close to optimal, with at least that probability; the bound is explicit. MENTS' soft value is close to it up to temperature times log of the number of actions per move.", "quantifier": "every finite stochastic environment with bounded values, every exploring algorithm with DP values (DB-MENTS, DENTS, EST) or soft values (MENTS), every number of workers and every scheduler, every accuracy", "why_tests_cant": "The statement is about probabilities over all random outcomes and every interleaving, in the limit of many trials.", "anchors": ["src/algorithms/common/dp_decision_node.cpp, dp_chance_node.cpp: backup_dp", "src/algorithms/ments/ments_chance_node.cpp: backup_soft", "src/thts.cpp: run_thts_trial"]}
{"id": "C91", "title": "The values of whole searches are accurate in floating point", "statement": "Computed in double precision: (a) in every state of every search the average return of a node is the mean of the returns of the trials backed up through it (sums of rewards and of the heuristic value at the end), up to an explicit bound in the number of trials, the length of trials and the size of rewards; (b) whenever no trial is running (no transposition table) the DP value of a node is the exact value of the search tree below it, up to (levels below) x (8 K + 3) x 2^-53 x (largest value) for chance nodes with at most K children; (c) so in a deterministic environment in which everything has been tried the values are those of the game and recommended actions are optimal, up to such a bound.", "quantifier": "every environment with rewards and heuristic values that are doubles of bounded size, every number of workers, every schedule, every selection rule, every number of trials up to 2^49", "why_tests_cant": "Rounding errors accumulate over all trials and levels; a test compares a few values with a tolerance.", "anchors": ["src/thts.cpp: run_backup_phase", "src/algorithms/uct/uct_decision_node.cpp: backup_average_return", "src/algorithms/common/emp_node.cpp: backup_emp", "src/algorithms/common/dp_chance_node.cpp: backup_dp_impl", "src/algorithms/common/dp_decision_node.cpp: backup_dp_impl"]}
{"id": "C92", "title": "Counters do not overflow", "statement": "As long as the trials run on a tree, over all runs, plus the pseudo trials stay below 2^31 - 3, every int computed in a search fits 32 bits: the visit counts of nodes (also plus one and plus three, as in the exploration terms), the backup counts of every algorithm, depths and timesteps (given that max_depth and the root's timestep leave room), and the trial and thread counters of the pool. Without such a limit this is false: nothing in the code limits the number of trials, and a search that goes on long enough makes the root's visit count overflow.", "quantifier": "every environment, algorithm, number of workers, schedule and number of trials", "why_tests_cant": "Two billion trials are out of reach of a test, but not of a long search with several threads.", "anchors": ["include/thts_decision_node.h: num_visits", "include/thts_chance_node.h: num_visits", "src/algorithms/ments/ments_decision_node.cpp: compute_action_distribution", "src/algorithms/common/dp_decision_node.cpp: backup_dp_impl", "src/thts.cpp: worker_fn"]}
{"id": "C93", "title": "UCT and PUCT choose well in floating point", "statement": "Computed in double precision, with a log, sqrt and pow of small relative error: in every search every action UCT or PUCT selects is either one that has not been tried (without prior) or has a UCB value, in real arithmetic with the stored averages, within an explicit rounding error of that of every other action; the error is proportional to 2^-53 and to the size of the averages and of the exploration terms. The action recommended by the average returns has, up to the errors of the averages, the best mean of the returns of its trials. It is not true that of two actions with equal averages the one tried less is preferred: large averages absorb the exploration term.", "quantifier": "every environment, number of workers, schedule, random draw and map order; fewer than 2^31 trials; every log, sqrt and pow with the given accuracy", "why_tests_cant": "Rounding depends on every bit of the averages and counts, and on the library's log, sqrt and pow.", "anchors": ["src/algorithms/uct/uct_decision_node.cpp: compute_ucb_term, fill_ucb_values, select_action_ucb, recommend_action_best_empirical", "src/algorithms/uct/puct_decision_node.cpp: compute_ucb_term"]}
{"id": "C94", "title": "The values of whole MENTS searches are accurate in floating point", "statement": "Computed in double precision, with an exp and a log of small relative error: whenever no trial is running (no transposition table, constant temperature, no prior) the soft value of every decision and chance node is the soft value of the search tree below it in real arithmetic, up to an explicit error per level, proportional to 2^-53, to the errors of exp and log, and to the size of the values and of the temperature. So in a deterministic environment in which everything has been tried, it is the value of the game up to that error and temperature times log of the number of actions per move, and the action recommended by soft value is within twice that of optimal. The number of backups a node reports is the number of trials that went through it (for leaves: that ended in it).", "quantifier": "every environment with rewards, heuristic values and default value of bounded size, at most 1000 actions per state, values at most 10^6 temperatures, every number of workers, every schedule, every selection rule, every number of trials up to 2^49, every exp and log with the given accuracy", "why_tests_cant": "Errors of exp, log and rounding accumulate over all levels of the tree; a test compares a few values with a tolerance.", "anchors": ["src/algorithms/ments/ments_decision_node.cpp: compute_action_weights, backup_soft, recommend_action_best_soft_value", "src/algorithms/ments/ments_chance_node.cpp: backup_soft"]}
{"id": "C95", "title": "Finished TENTS searches are near the value of the game", "statement": "Whenever no trial of a TENTS search is running (no transposition table, constant temperature) the value of every decision node is the sparse minimax value of the search tree below it: temperature times the largest value, over all distributions, of expected action value over temperature plus Tsallis entropy, with tried actions valued by the tree and untried ones by the default or prior value. So in a deterministic environment in which everything has been tried it is the value of the game up to half the temperature per move to go - whatever the number of actions - and the action recommended by value is within one temperature per remaining move of optimal. TENTS and RENTS explore: every valid action has at least an explicit probability at every selection, so all this holds after enough trials with probability close to one, for any number of workers and any schedule; and in stochastic environments the value of the root is close to the expected value under optimal play up to half the temperature per move and a sampling error.", "quantifier": "every environment, every tree a TENTS search can build with any number of workers and any schedule, every scheduler, all random draws", "why_tests_cant": "It is about the fixpoint of the backups over whole trees and about probabilities over all runs.", "anchors": ["src/algorithms/ments/tents/tents_decision_node.cpp: backup_tents, spmax, get_sparse_action_set, compute_action_weights", "src/algorithms/ments/ments_chance_node.cpp: backup_soft", "src/algorithms/ments/rents/rents_decision_node.cpp: compute_action_weights"]}
{"id": "C96", "title": "The values of whole TENTS searches are accurate in floating point", "statement": "Computed in double precision, with a pow of small relative error: whenever no trial is running (no transposition table, constant temperature, no prior) the value of every decision and chance node of a TENTS search is the sparse minimax value of the search tree below it in real arithmetic, up to an explicit error per level, proportional to 2^-53, to the square of the number of actions, and to the size of the values over the temperature; values next to the boundary of the sparse set do no harm. So in a deterministic environment in which everything has been tried, it is the value of the game up to that error and half the temperature per move, and the recommended action is within twice that of optimal. The number of backups a node reports is the number of trials that went through it (for leaves: that ended in it). The update of the value maps never fails to find the old value, although it looks it up by comparing doubles for equality. With a single worker the search policy is that of the current values up to rounding, if the fourth power of the number of actions times the size of the values over the temperature is small against 2^53.", "quantifier": "every environment with rewards, heuristic values and default value of bounded size, at most 1000 actions per state, values at most 2^50 temperatures, every number of workers, every schedule, every selection rule, every number of trials up to 2^49, every pow with the given accuracy", "why_tests_cant": "Rounding errors accumulate over all levels of the tree, the sparse set changes discontinuously with the values, and lookups by equal doubles depend on every bit; a test compares a few values with a tolerance.", "anchors": ["src/algorithms/ments/tents/tents_decision_node.cpp: TentsDNode, update_maps, get_sparse_action_set, spmax, backup_tents, compute_action_weights", "src/algorithms/ments/ments_chance_node.cpp: backup_soft"]}
{"id": "C97", "title": "Environments made from the template say through the interface what they say themselves", "statement": "An environment written by filling in the environment template answers every question of the library (initial state, sink states, valid actions, transition distribution and samples, observation distribution and samples, rewards, contexts) with exactly what its own typed functions answer: the same objects, the same order of actions, and for distributions the same probability for every state or observation. In particular a search samples successors with the probabilities its typed transition distribution states.", "quantifier": "every environment filled into the template, fully or partially observable, with or without own versions of the boilerplate functions; every state, action, distribution, map order and random draw", "why_tests_cant": "The template is not compiled by any test, and equal states behind different pointers do not occur in the tests.", "anchors": ["include/templates/thts_env_template.h: get_valid_actions_itfc, get_transition_distribution_itfc, get_observation_distribution, get_observation_distribution_itfc, sample_observation_distribution_itfc, sample_context", "src/thts_env.cpp: get_observation_distribution_itfc, sample_observation_distribution_itfc, sample_context_itfc", "include/templates/thts_chance_node_template.h: create_child_node_helper"]}
{"id": "C98", "title": "Whole random searches with doubles end near the optimum", "statement": "Everything computed in double precision and every uniform number drawn from a finite set of equally likely doubles in [0,1): in a deterministic environment a MENTS search with uniform exploration ends, without an exception, with a root value within the explicit errors of C94 of the value of the game and a recommended action within twice that of optimal, with probability at least 1 - (number of plays) x missBound - (steps) x (failure rate), for every number of workers and every schedule; missBound tends to 0 with growing exploration and the failure rate is (5 actions + 9) x 2^-53 plus the unevenness of the generator. The same for DB-MENTS with DP values, without the error of the temperature. Every valid action has at least a quarter of its uniform exploration probability at every selection. The failure rate cannot be dropped: there are searches that throw with positive probability.", "quantifier": "every deterministic environment with values of bounded size, at most 800 actions per state, every number of workers and every scheduler, every exp and log of small relative error, every map order, every generator whose draws are spread evenly up to a given error", "why_tests_cant": "It needs probabilities over all runs and all schedules, and the failures have a probability of about 2^-50.", "anchors": ["src/algorithms/ments/ments_decision_node.cpp: compute_action_distribution, select_action_ments, backup_soft, recommend_action_best_soft_value", "src/algorithms/ments/dbments_decision_node.cpp: backup, recommend_action", "src/helper_templates.cc: sample_from_distribution", "include/thts_manager.h: get_rand_uniform", "src/thts.cpp: run_thts_trial"]}
{"id": "C99", "title": "DENTS averages the entropies of successors by how often they were reached", "statement": "Whenever no trial is running, the entropy a DENTS node keeps for an action is the mean of the entropies of the successors found, weighted by how often the trials reached each of them (as the values of successors are averaged). It is false: a trial that ends in a node does not count, so a successor in which every trial ends (a sink or a node at the maximal depth) has weight one however often it was reached. For successors that are not leaves the weight is the number of visits in mcts mode, and one more otherwise.", "quantifier": "every environment, every number of workers, every schedule, every number of trials, no transposition table, positive epsilon", "why_tests_cant": "The tests call the backup functions of single nodes with given counts; which counts a whole search produces depends on all its trials.", "anchors": ["src/algorithms/common/ent_decision_node.cpp: visit_ent, backup_ent_impl", "src/algorithms/common/ent_chance_node.cpp: backup_ent_impl", "src/algorithms/ments/dbments_decision_node.cpp: visit", "src/algorithms/ments/dents/dents_decision_node.cpp: backup"]}
{"id": "C100", "title": "The entropy bonus of DENTS is bounded and fades", "statement": "In every state of a DENTS search the entropy of every node is at most log B for every move to go and one more, in absolute value, where no state has more than B actions, and it is not negative in a single player game. So the value DENTS uses for a tried action differs from the value estimate of its child by at most the value temperature times that bound, and with a decaying value temperature by at most the minimal value temperature times that bound once the node has been visited often enough.", "quantifier": "every environment, both players, every number of workers, every schedule, with or without transposition table, dp or empirical values, positive epsilon, prior weight at most log 3, every decay function that tends to zero", "why_tests_cant": "Entropies are sums over whole subtrees; a test sees a few trees.", "anchors": ["src/algorithms/common/ent_decision_node.cpp: backup_ent_impl", "src/algorithms/common/ent_chance_node.cpp: backup_ent_impl", "src/algorithms/ments/dents/dents_decision_node.cpp: get_soft_q_value, get_value_temp, backup", "src/algorithms/common/decaying_temp.cpp: compute_decayed_temp"]}
{"id": "C101", "title": "Finished RENTS searches are near the value of the game", "statement": "With a constant temperature and without transposition table: after a RENTS search in which every action of a deterministic environment has been tried (up to the depth limit), the value of every decision node differs from the minimax value of the game by at most the temperature times the logarithm of the number of actions per move to go, as for MENTS (C68), and the recommended action is nearly optimal. A search with random exploration gets there with a probability that tends to one, also in stochastic environments.", "quantifier": "All deterministic or stochastic environments, one or two players, numbers of workers, schedules, draws and numbers of trials", "why_tests_cant": "The value of a node is computed relative to the policy its parent happened to have when the last trial passed it, so it depends on the whole history of the search; tests see a few histories.", "anchors": ["src/algorithms/ments/rents/rents_decision_node.cpp: RentsDNode::compute_action_weights, get_parent_action_prob", "src/algorithms/ments/ments_decision_node.cpp: MentsDNode::backup_soft", "src/algorithms/ments/ments_chance_node.cpp: MentsCNode::backup_soft"]}
{"id": "C102", "title": "UCT and PUCT find the values of stochastic environments", "statement": "In a stochastic environment with bounded rewards and heuristic values, without transposition table and without uniformly random actions: for every accuracy and every failure probability there is a number of trials from which on a UCT or PUCT search ends, with at most that probability of failing, with the root's value estimate within the accuracy of the expectimax value of the game, every action's value estimate within the accuracy of its expected value, every suboptimal action selected in at most that share of the trials, and an optimal recommended action. The number of trials depends neither on the schedule nor on how ties between actions are broken.", "quantifier": "every environment with finitely many actions and outcomes, one or two players, every number of workers, every scheduler that looks at the history, every dice for ties and every distribution of outcomes, both recommendation criteria, every exploration term that grows and vanishes as those of UCT and PUCT", "why_tests_cant": "It is a statement about the probability of all runs of a search, in the limit of many trials, for every scheduler; a test sees one seed and one number of trials.", "anchors": ["src/algorithms/uct/uct_decision_node.cpp: UctDNode::select_action_ucb, recommend_action_best_empirical, backup_uct", "src/algorithms/uct/uct_chance_node.cpp: UctCNode::backup_uct, sample_observation_random", "src/algorithms/uct/puct_decision_node.cpp: PuctDNode::compute_ucb_term", "src/thts.cpp: run_thts_trial, run_backup_phase"]}
{"id": "C103", "title": "Results can be read while no trial is running, and only then", "statement": "Recommending an action, following the recommendations through the tree and evaluating them read the nodes' child maps, visit counts and values without taking any lock. Once join() has returned, and until run_trials is called again, no worker accesses any node and the tree does not change, so a recommendation that reads the children one after the other, interleaved with anything the other threads do, is a recommendation for one state of the tree, and it is one that whole blocks of the search lead to. It is false while trials are running (also from the thread that made a non-blocking run_trials call): a worker can be about to write a node that is being read, which is a data race, and an action can be recommended that would be recommended neither for the tree at the beginning nor for the tree at the end of the call.", "quantifier": "every environment, algorithm, number of workers, schedule, logger and transposition table, every decision node, every interleaving of the reading thread with the workers", "why_tests_cant": "It depends on the interleaving of the reads with all steps of all workers; a test sees a few schedules and cannot see data races.", "anchors": ["src/algorithms/uct/uct_decision_node.cpp: recommend_action_best_empirical, recommend_action_most_visited", "src/algorithms/ments/ments_decision_node.cpp: recommend_action_best_soft_value", "src/thts_decision_node.cpp: has_child_node_itfc, get_child_node_itfc", "src/mc_eval.cpp: EvalPolicy::get_action, EvalPolicy::update_step, MCEvaluator::run_rollout", "src/thts.cpp: run_trials, join"]}
{"id": "C104", "title": "The random integers and the random reals of a manager do not depend on each other", "statement": "Whatever random integers and uniform reals a search asks its manager for, in whatever order, they are as good as independent: for every list of requests, integers from any ranges and reals, the probability of any answers (each integer equal to a given value, each real in a given interval) is the product of the probabilities of the single answers. It is false for a seed other than zero: both generators are seeded alike and produce the same words, so every second integer is determined by an earlier (or later) real, and a combination of answers of probability 1/4 has probability zero. It holds up to an explicit relative error, which is small for the ranges of integers that searches use, because an integer is made of the low bits of a word and a real of the high bits; and it holds exactly with seed zero. Two managers with the same non-zero seed give the same answers to the same requests.", "quantifier": "every seed and every generator of equally likely 32-bit words, every finite list of requests in every order, every range of integers and every interval", "why_tests_cant": "It is a statement about the probability of combinations of answers; the tests check single ranges, with one seed.", "anchors": ["include/thts_manager.h: RandManager::RandManager, init_random_seed, get_rand_int, get_rand_uniform", "src/distributions/categorical_distribution.cc: sample", "src/helper_templates.cc: sample_from_distribution, get_max_key_break_ties_randomly"]}
{"id": "C105", "title": "A search with one thread and a fixed seed is reproducible", "statement": "With one worker thread, the same environment and options, and random draws that are a function of what was drawn before (a fixed non-zero seed), two calls of run_trials with the same number of trials and no time limit leave exactly the same tree behind, node for node and value for value, however the threads of the pool and the caller are scheduled and however long anything takes; several calls in a row give the same tree as one call with the sum of the numbers of trials. It is false with two or more workers, where the tree depends on the schedule, and with a time limit.", "quantifier": "every environment and algorithm, every rule by which the random draws follow from the past, every schedule, every number of trials, with or without logger and transposition table", "why_tests_cant": "It compares all pairs of schedules of the whole program.", "anchors": ["src/thts.cpp: run_trials, worker_fn, run_thts_trial, join", "include/thts_manager.h: RandManager", "include/thts.h: ThtsPool"]}
{"id": "C106", "title": "A search can go on from a node of an old tree as if it had started there", "statement": "After an action has been taken, the node reached in the old tree can become the new root (set_new_env between two searches) and the search can go on below it, any number of times. Without transposition table and without mcts mode, the tree below the root is then at every moment, node for node and value for value, a tree that a search started at a new node with the root's state, depth and timestep could have built, and for the same random choices both searches go on in the same way, so everything that is known about searches from a new root holds for searches that reuse a tree. In mcts mode it is the tree of a search of which one trial only looked at the root. No search that reuses a tree dies. The depth limit goes on counting from the first root. It is false for RENTS, whose trials fail at a root of positive depth, in mcts mode without that extra look, and with a transposition table.", "quantifier": "every environment, every algorithm that uses of a trial only what happened below the node (UCT, PUCT, MENTS, DB-MENTS, TENTS, DENTS, EST), every number of workers, every schedule, every number of changes of the root, every node below the root", "why_tests_cant": "It compares all searches that were ever moved to another root with all searches from a new root, for every schedule and any number of moves.", "anchors": ["src/thts.cpp: set_new_env, run_selection_phase, run_backup_phase", "include/thts.h: ThtsPool::set_new_env", "src/thts_decision_node.cpp: is_leaf, create_child_node_itfc", "src/thts_chance_node.cpp: create_child_node_itfc", "src/algorithms/ments/rents/rents_decision_node.cpp: get_parent_distr_from_context"]}
{"id": "C107", "title": "Backup counts are truthful", "statement": "The number of backups that a node of a search has counted (num_backups, which the loggers write for the root and by which a chance node weighs its successors) is, whenever no trial is running, the number of trials that went through the node: for an action the number of its visits; for a decision node its visits without the trials that ended there, and with them if the node is a leaf; for the root the number of completed trials. While trials are running it is never more, and less by at most the number of running trials. Without mcts mode it is therefore the number of visits everywhere. In mcts mode it is not: the trial that creates a node is never counted, so a successor found by a single trial has weight zero in the average of its parent.", "quantifier": "every environment, algorithm (UCT, MENTS, DB-MENTS, RENTS, TENTS, DENTS, EST), number of workers, schedule and node, with or without transposition table", "why_tests_cant": "It is an equation between counters that holds at the end of every interleaving of any number of trials.", "anchors": ["src/algorithms/ments/ments_decision_node.cpp: visit, backup_soft", "src/algorithms/ments/ments_chance_node.cpp: backup_soft", "src/algorithms/common/dp_decision_node.cpp: visit_dp", "src/algorithms/ments/ments_logger.cpp", "src/algorithms/est/est_decision_node.cpp: backup", "src/algorithms/ments/tents/tents_decision_node.cpp: backup"]}
{"id": "C108", "title": "With a transposition table, values become exact after as many rounds as the game has moves", "statement": "When a search with DP values (DB-MENTS, DENTS, EST) uses a transposition table, a node can have several parents, and a trial only backs up the parents it came through. So a search of a deterministic game that has tried every action of every node can still have a wrong value at the root and recommend a wrong move, and the value of an action need not agree with the value of the node it leads to; without a table neither can happen. But the values recover: if afterwards the search runs on in rounds, each of which tries every action of every node again, then after n rounds all nodes with at most n+1 moves to go have the exact value of the game, for every schedule of the trials in each round; after as many rounds as the game has moves, less one, the root's value and its recommendation are exact. The bound on the number of rounds is sharp for games of two moves.", "quantifier": "every deterministic environment with one or two players, every algorithm with DP values, number of workers, schedule, number of rounds and order of the trials in a round, with or without transposition table", "why_tests_cant": "The claim is about every order of any number of concurrent trials over every directed acyclic graph of states; the number of rounds needed grows with the depth of the game.", "anchors": ["src/thts_chance_node.cpp: create_child_node_itfc", "src/algorithms/common/dp_decision_node.cpp: backup_dp_impl", "src/algorithms/common/dp_chance_node.cpp: backup_dp_impl", "src/thts.cpp: run_backup_phase", "include/thts_manager.h: use_transposition_table"]}
{"id": "C109", "title": "A random search with a transposition table finds exact values when it is run several times", "statement": "A deterministic game of at most L moves is searched with DP values (DB-MENTS, DENTS, EST), with or without a transposition table, by L calls of run_trials with N trials each on the same tree. With probability at least 1 minus an explicit bound, whatever the schedule, every node of the tree then has the exact value of the game, the root included; the bound tends to zero with growing N for every search whose probability of each action does not fall too fast. One call is enough without a table. During a call, every play of the game that is possible is followed to its end by some trial of that same call, except with a probability that is bounded in the same way, whatever happened in earlier calls.", "quantifier": "every deterministic environment with one or two players, every algorithm with DP values that explores, every number of workers, schedule (which may depend on everything that happened), number of calls and of trials per call, with or without transposition table", "why_tests_cant": "It is a statement about the probability of sets of runs of unbounded length under every schedule.", "anchors": ["src/thts.cpp: run_trials, run_thts_trial, run_backup_phase", "src/thts_chance_node.cpp: create_child_node_itfc", "src/algorithms/common/dp_decision_node.cpp: backup_dp_impl", "src/algorithms/ments/ments_decision_node.cpp: select_action_ments, compute_action_distribution"]}
{"id": "C110", "title": "The default settings work and need no depth limit", "statement": "If every episode of an environment ends within L moves, the depth limit does not matter: searches with any two limits of at least L moves have the same runs and the same probabilities. So the managers can be built from an environment alone. With the default settings (depth limit 2^31 - 1, mcts mode, no transposition table, zero heuristic, temperature 1, exploration 0.5, DP values, automatic bias) and any number of workers, trials come to an end, also in environments whose episodes never end; fewer than 2^31 trials keep the probability of every action at a node with at most B actions at 1/(44B) or more; with probability at least 1 minus an explicit bound in L, B and the number of trials, DB-MENTS, DENTS and EST find the exact value of a deterministic game and recommend an optimal move, MENTS and TENTS come within L log B and L/2 of the value; and UCT and PUCT solve every environment with chance as the number of trials grows.", "quantifier": "every environment whose episodes end (for the end of trials: every environment), every pair of depth limits, every number of workers, schedule and number of trials", "why_tests_cant": "The default depth limit is two billion; tests run with small limits. The claim relates all runs under different limits and bounds probabilities over all of them.", "anchors": ["include/thts_manager.h: ThtsManagerArgs, ThtsManager", "include/algorithms/ments/ments_manager.h: MentsManagerArgs, MentsManager", "include/algorithms/ments/dents/dents_manager.h: DentsManagerArgs, DentsManager", "include/algorithms/uct/uct_manager.h: UctManagerArgs, UctManager", "include/algorithms/uct/puct_manager.h: PuctManagerArgs, PuctManager", "src/thts_decision_node.cpp: is_leaf"]}
{"id": "C111", "title": "Evaluating a finished search measures the value of the game", "statement": "A game is searched with DP values (DB-MENTS, DENTS, EST) until the search has tried everything, and then its policy is evaluated by MCEvaluator. In a deterministic game whose episodes end, every single rollout returns exactly the value of the game that the search reports at its root, for every number of evaluation threads, every interleaving and every random draw; so the mean return is that value and the deviation is zero, and no rollout ever leaves the tree. With the default settings this happens with probability at least 1 minus the explicit bound of the search, also for games of two players. In a game with chance the expected mean return of the evaluation comes, for every eps and delta, within eps of the optimal value with probability at least 1 - delta over the search, if the search has enough trials. For MENTS at a constant temperature, every rollout of a deterministic game returns a value within a bound proportional to the temperature of the value of the game.", "quantifier": "every environment whose episodes end, every search with DP values that explores (for the last sentence: MENTS), every number of search workers and evaluation threads, every schedule of both, every number of rollouts", "why_tests_cant": "It combines a claim about the probability of searches under every schedule with a claim about every interleaving of an evaluation of the result.", "anchors": ["src/mc_eval.cpp: run_rollout, run_rollouts, get_action, update_step, get_mean_return, get_stddev_return", "src/algorithms/ments/dbments/dbments_decision_node.cpp: recommend_action", "src/algorithms/ments/dents/dents_decision_node.cpp: recommend_action", "src/algorithms/ments/ments_decision_node.cpp: recommend_action_best_soft_value", "src/thts.cpp: run_trials"]}
{"id": "C112", "title": "A call of run_trials on a real search returns", "statement": "While a blocking run_trials or join without a time limit is in progress on a pool with at least one worker, some thread can always go on, in the pool or inside a trial; from every state there is a bound on the number of steps of the program (plus a constant for each spurious wake-up) after which the call has returned; so under every fair schedule it returns. For every number N a run_trials(N) can be carried out, and when it has returned exactly N trials have been completed on the tree. This holds for the pool, the trials of each search algorithm, the tree and the logger together.", "quantifier": "every environment that is not stuck, every algorithm (UCT, PUCT, MENTS, RENTS, TENTS, DB-MENTS, EST, DENTS with exploration), every number of workers and trials, every state reached by any schedule, every fair continuation", "why_tests_cant": "It is a liveness property over infinite schedules of the composed system.", "anchors": ["src/thts.cpp: run_trials, join, worker_fn, run_thts_trial, run_selection_phase, run_backup_phase, try_log, work_left", "src/thts_logger.cpp: should_log"]}
{"id": "C113", "title": "Searches with average returns find the best move given enough trials", "statement": "With use_dp_value=false DENTS and EST estimate the value of a move by the average of the returns of the trials that made it. A user expects that the probability that the finished search recommends an optimal move tends to one with the number of trials. This is false when the search temperature does not decay: in a deterministic game with one player and two moves the probability that a finished EST search with the default temperature recommends the optimal move is at most 2 (10/11)^N after N trials, whatever the exploration settings, the number of workers and the schedule, because the average return of a move also counts the bad continuations that the search keeps exploring. What does hold: in a deterministic game with one player average returns never exceed the value of the best continuation, at any moment of any search, if the heuristic never exceeds the value of the rest of the game, and they are exact for moves that end the game; so in a game of one move a search that has tried all moves recommends an optimal one, for one and for two players.", "quantifier": "false part: every number of workers and trials, every schedule, every exploration setting; true part: every deterministic environment, every state reached by any schedule", "why_tests_cant": "It is about the limit of a probability; a test sees a few finished searches and cannot tell slow convergence from convergence to the wrong move.", "anchors": ["include/algorithms/ments/dents/dents_manager.h: use_dp_value", "src/algorithms/est/est_decision_node.cpp: get_soft_q_value, backup", "src/algorithms/ments/dents/dents_decision_node.cpp: recommend_action, get_soft_q_value", "src/algorithms/common/emp_node.cpp: backup_emp"]}
{"id": "C114", "title": "Any weight can be given to a prior policy", "statement": "prior_policy_search_weight is documented as a weighting of the prior policy in a mixture with the energy based and the uniform policy, without a range. A user expects that the search policy is a probability distribution for every non-negative weight, so that every action with a positive prior probability keeps being selected. This is false: the weight is divided by log(visits+3) but, unlike the weight of uniform exploration, not limited to one. At a node with at least two actions the mixture is non-negative for all values and all priors exactly if (1-l)(p-1) <= l/|A|, where l is the weight of uniform exploration and p the one of the prior. Negative entries are dropped without normalising the rest, whose sum then exceeds one, so select_action throws for all draws close to one, and for every draw if there are two actions. For every number N of trials there are weights such that, in a game of one move with two actions, MENTS with the default exploration throws at every selection that follows one of the better action within N trials, whatever the number of workers, the schedule and the random numbers. A positive weight without a prior function makes every search fail at its first selection, with a null pointer. What holds, for every weight: at nodes visited at least exp(weight)-3 times the policy is a distribution and selecting returns a valid action.", "quantifier": "every weight, prior, environment, value and number of visits (policy); every number of workers, schedule and random numbers (search)", "why_tests_cant": "The effect depends on the weight, the number of visits and the values of the children together; it shows in a distribution, not in a failure.", "anchors": ["include/algorithms/ments/ments_manager.h: prior_policy_search_weight", "src/algorithms/ments/ments_decision_node.cpp: compute_action_distribution, select_action_ments"]}
{"id": "C115", "title": "Every accepted number of threads gives a pool and an evaluator that do their work", "statement": "ThtsPool and MCEvaluator::run_rollouts accept num_threads = 0. A user expects that such a call is refused or that the work is done. This is false: a pool with zero threads never starts a trial; a blocking run_trials of at least one trial without time limit never returns, whatever happens; with a time limit it does not return either once the caller has gone to sleep before the deadline, however much time passes, unless a spurious wake-up occurs; run_rollouts returns at once without sampling anything, so the statistics silently describe other rollouts or none. What holds: with at least one thread a call without time limit is never stuck and returns after boundedly many steps; with zero threads calls that ask for no trial return.", "quantifier": "every history of the pool, every number of trials, every time limit, every schedule", "why_tests_cant": "A hang is not observable by a test that waits for a result, and depends on the absence of every wake-up.", "anchors": ["src/thts.cpp: ThtsPool::ThtsPool, ThtsPool::run_trials, ThtsPool::join", "src/mc_eval.cpp: MCEvaluator::run_rollouts"]}
{"id": "C116", "title": "Vectors, distributions and the transposition table can be printed at any time", "statement": "The stream operators print vectors of actions as [x,y], distributions as {k:v,...} and the transposition table as {id:node,...}, each element once. A user expects that printing has no preconditions. Vectors and maps are printed exactly so for every content, and if no element contains a comma, non-empty vectors that print alike have elements that print alike. In particular vectors of integer actions that print alike are equal, and so are states of one, two or three integers. For the table it is false: printing it turns every weak pointer into a shared one, so it throws bad_weak_ptr exactly if a node of the table no longer exists. During the first search with a manager it succeeds at every moment and shows every entry once; after a tree that used the table has been destroyed, and at every moment of every later search with the same manager, it throws.", "quantifier": "every vector, map and order of iteration; every reachable state of every search, every history of trees of a manager", "why_tests_cant": "It depends on which nodes are still alive, a matter of the history of the manager.", "anchors": ["src/helper_templates.cc: vector_pretty_print_string, unordered_map_pretty_print_string", "src/thts_types.cpp: operator<<"]}
{"id": "C117", "title": "A time limit is a limit of elapsed time", "statement": "run_trials(n, limit) is expected to start trials only while less than the limit has passed since the call, and none after it has returned. This is so, with all the other properties of the pool, as long as the clock of the machine is not set backwards. Otherwise it is false, because the pool reads the wall clock: after the clock has been set back a trial can start any time later, and even after a blocking run_trials has returned at its deadline, when the client may already read or change the tree. If the clock is set forwards the call can return without a single trial although no time has passed. However the clock is set, the number of trials is never exceeded, and calls without a time limit behave as if it had not been set.", "quantifier": "every number of threads, every schedule, every sequence of calls and every moment and amount by which the clock is set", "why_tests_cant": "Tests do not set the clock of the machine.", "anchors": ["src/thts.cpp: ThtsPool::work_left, ThtsPool::run_trials", "include/thts.h: ThtsPool::start_time"]}
{"id": "C118", "title": "Equal returns have no spread, and the evaluator's statistics are accurate in floating point", "statement": "get_mean_return and get_stddev_return are expected to describe the sampled returns: the mean lies between the smallest and the largest return, equal returns (a deterministic game and policy) have that return as mean and no spread, and the spread is not negative. In floating point the first two are false: for nine returns of 1 the mean reported is above 1 and the spread is positive, for six returns of 1 the mean is below 1, because the code adds up rounded fractions instead of dividing once. What holds for n returns of size at most M: the spread is never negative, and it is the sample variance (see C49 for its name) up to (40n+300) 2^-53 M^2; the mean is accurate up to (2n+4) 2^-53 M. Rollouts of at most L moves with rewards of size at most r are added up with an error of at most L(L+3) 2^-53 r, so the mean reported is that of the exact returns up to the sum of both errors. For 2^k returns that are integers of size at most 2^(53-k) the mean is exact, and equal returns have no spread.", "quantifier": "every list of at least two double returns (at most 2^40 for the bounds), every implementation of pow that squares with an error of at most two units in the last place", "why_tests_cant": "Tests compare with a tolerance, or use numbers of returns and values for which no rounding occurs; the bound is for all returns and lengths.", "anchors": ["src/mc_eval.cpp: MCEvaluator::run_rollout, MCEvaluator::get_mean_return, MCEvaluator::get_stddev_return"]}
{"id": "C119", "title": "A pool only ever works with a manager and a root node", "statement": "The constructor of ThtsPool refuses a null manager or root node, so a user expects that no trial ever meets one, and that trials use the manager and root node installed last. The second is true of every read of every trial. The first is false: set_new_env does not test its arguments, so it accepts null pointers even between two calls of run_trials, when no trial is running, and then every trial dereferences them until others are installed. If set_new_env is never given a null pointer, no trial meets one. Moreover the header documents that a root node is made if none is given (it is even a default argument), which is false: the constructor then always throws.", "quantifier": "every number of threads, every schedule and every sequence of calls; every combination of null pointers", "why_tests_cant": "The crash happens in a worker thread during a later call, after an unchecked argument; what a trial reads depends on the schedule.", "anchors": ["src/thts.cpp: ThtsPool::ThtsPool, ThtsPool::set_new_env, ThtsPool::run_thts_trial", "include/thts.h: ThtsPool"]}
{"id": "C120", "title": "An action being tried for the first time keeps its value until something is known about it", "statement": "While the first trials through an action of a MENTS node are running and none of them has been backed up, the other workers see the action with the value it had before it was tried. This holds without a prior policy: the value is the default value, negated for the opponent. With a prior policy it is false: from the moment the action is selected until its first backup its value is the default value instead of the one derived from the prior, so that two actions of equal prior probability are treated differently although nothing is known about either.", "quantifier": "every environment, every number of workers, every schedule, every selection rule, every moment at which no trial through the action has been backed up", "why_tests_cant": "The value is visible only to other workers that select at the same node during the trial; no test can produce all interleavings.", "anchors": ["src/algorithms/ments/ments_chance_node.cpp: MentsCNode (soft_value(thts_manager->default_q_value))", "src/algorithms/ments/ments_decision_node.cpp: get_soft_q_value"]}
