{
 "claims": [
  {
   "property": "C01",
   "status": "proved",
   "theorems": [
    "Verif.Pool.c01_budget_never_exceeded"
   ],
   "note": "All schedules of the pool model."
  },
  {
   "property": "C02",
   "status": "proved",
   "theorems": [
    "Verif.Pool.c02_exact_number_of_trials"
   ],
   "note": "All schedules; the time limit must not have been reached when join returns."
  },
  {
   "property": "C03",
   "status": "proved",
   "theorems": [
    "Verif.Pool.c03_join_quiescent"
   ],
   "note": "All schedules, including time-limited runs; the model clock is monotone."
  },
  {
   "property": "C04",
   "status": "partial",
   "theorems": [
    "Verif.Pool.c04_never_stuck",
    "Verif.Pool.c04_bounded_wait",
    "Verif.Pool.c04_unlimited_not_expired",
    "Verif.Pool.c04_unlimited_run_returns",
    "Verif.Pool.c04_time_limit_false"
   ],
   "note": "Proved without a time limit (and with one while the deadline has not passed). False of the code with a time limit: lost wake-up, c04_time_limit_false."
  },
  {
   "property": "C05",
   "status": "proved",
   "theorems": [
    "Verif.Pool.c05_destructor_terminates"
   ],
   "note": "From every reachable state, time limits included."
  },
  {
   "property": "C06",
   "status": "partial",
   "theorems": [
    "Verif.Pool.c06_set_new_env_false",
    "Verif.Pool.c06_single_root_partial",
    "Verif.Pool.c06_refused_while_work_left"
   ],
   "note": "False of the code (c06_set_new_env_false): set_new_env checks work_left() only. Proved under the discipline that set_new_env is called after join()."
  },
  {
   "property": "C07",
   "status": "proved",
   "theorems": [
    "Verif.Pool.c07_at_most_num_threads"
   ],
   "note": "Also characterises the busy counter while the pool is alive."
  },
  {
   "property": "C08",
   "status": "proved",
   "theorems": [
    "Verif.Search.c08_trial_is_trajectory"
   ],
   "note": "Every algorithm that selects valid actions, every schedule, any number of workers. "
  },
  {
   "property": "C09",
   "status": "proved",
   "theorems": [
    "Verif.Search.c09_depth_limit",
    "Verif.Search.c09_leaves_have_no_children",
    "Verif.Search.c09_selections_bounded",
    "Verif.Search.c09_trial_length_bounded"
   ],
   "note": "Every algorithm that selects valid actions, every schedule, any number of workers. Root depth at most max_depth."
  },
  {
   "property": "C10",
   "status": "proved",
   "theorems": [
    "Verif.Search.c10_where_trials_stop",
    "Verif.Search.c10_full_depth"
   ],
   "note": "Every algorithm that selects valid actions, every schedule, any number of workers. "
  },
  {
   "property": "C100",
   "status": "proved",
   "theorems": [
    "Verif.Dents.c100_entropy_bounded",
    "Verif.Dents.c100_bonus_bounded",
    "Verif.Dents.c100_fades"
   ],
   "note": "c100_entropy_bounded is the bound on the entropies, c100_bonus_bounded the bound on Q-values, c100_fades the fading for decaying value temperatures."
  },
  {
   "property": "C101",
   "status": "partial",
   "theorems": [
    "Verif.Tents.c101_node_value_partial",
    "Verif.Tents.c101_near_game_value_partial",
    "Verif.Tents.c101_near_action_values_partial",
    "Verif.Tents.c101_recommends_near_optimal_partial",
    "Verif.Tents.c101_solves_partial",
    "Verif.Tents.c101_stochastic_partial",
    "Verif.Tents.c101_false"
   ],
   "note": "False (c101_false): a RENTS node ignores the actions that its parent's policy does not list, so a finished search can be off by 19 at temperature 1 and recommend an action worth 10 instead of 30. What holds, for every environment and schedule: the value of a node is within 16 log 10 temperatures of the largest value of its actions (c101_node_value_partial), hence within `loss p` temperatures per move of the minimax value and of the optimal action (c101_near_game_value_partial, c101_near_action_values_partial, c101_recommends_near_optimal_partial), where `loss p` is 16 log 10 in general and log (1/p) if all states have the same actions and p is their exploration probability; random searches get there with a probability tending to one (c101_solves_partial, c101_stochastic_partial). Values are real numbers, no transposition table."
  },
  {
   "property": "C102",
   "status": "proved",
   "theorems": [
    "Verif.Uct.c102_always",
    "Verif.Uct.c102_root",
    "Verif.Uct.c102_uct_choices",
    "Verif.Uct.c102_uct"
   ],
   "note": "c102_always is the strong form (all nodes, all moments of the search), c102_root the form at the end of a search, c102_uct uses the code's own way of breaking ties. Exact real arithmetic, no transposition table; the number of trials is not given explicitly. cfg.low has to be below the smallest possible value, as in C76."
  },
  {
   "property": "C103",
   "status": "partial",
   "theorems": [
    "Verif.Prog.c103_no_race",
    "Verif.Prog.c103_static",
    "Verif.Prog.c103_over_actions",
    "Verif.Prog.c103_over_children",
    "Verif.Prog.c103_reads_complete",
    "Verif.Prog.c103_block_partial",
    "Verif.Prog.c103_uct",
    "Verif.Prog.c103_ments",
    "Verif.Prog.c103_dbments",
    "Verif.Prog.c103_dents",
    "Verif.Prog.c103_race_false",
    "Verif.Prog.c103_child_race_false",
    "Verif.Prog.c103_torn_false"
   ],
   "note": "False while trials are running: c103_race_false, c103_child_race_false (a worker is about to write the root or a child that the client, which has returned from a non-blocking run_trials, reads) and c103_torn_false (an action is recommended that neither the tree at the beginning nor the tree at the end of the call recommends), all for a real UCT search at the level of locks inside the whole program. Proved when join has returned: no accesses by workers, the tree does not change, every loop of reads gives the recommendation for one state of the tree, for all algorithms (c103_block_partial, that this is a state of whole blocks: one round of reading in backups, at most one mutex of the table)."
  },
  {
   "property": "C104",
   "status": "partial",
   "theorems": [
    "Verif.Rand.c104_seeded_partial",
    "Verif.Rand.c104_program_partial",
    "Verif.Rand.c104_same_words",
    "Verif.Rand.c104_seeded_false",
    "Verif.Rand.c104_seed_zero",
    "Verif.Rand.c104_same_seed"
   ],
   "note": "False for every seed other than zero (the default is zero): both generators are seeded alike, so a small first real and a large second integer exclude each other although each has probability at least 1/4 (c104_seeded_false, c104_same_words). Proved: with such a seed every program that uses random numbers, with requests that may depend on earlier answers, succeeds with the probability it has for independent uniform numbers up to a factor (1 +- N/(beta 2^29))^(2K) (c104_program_partial, c104_seeded_partial for lists of requests); exact independence with seed zero (c104_seed_zero); the same seed gives the same numbers (c104_same_seed). Words of mt19937 are taken to be uniform and independent; distributions as in libstdc++."
  },
  {
   "property": "C105",
   "status": "proved",
   "theorems": [
    "Verif.Prog.c105_number",
    "Verif.Prog.c105_comparable",
    "Verif.Prog.c105_same_number",
    "Verif.Prog.c105_reproducible",
    "Verif.Prog.c105_prefix",
    "Verif.Prog.c105_crash",
    "Verif.Prog.c105_two_workers_false",
    "Verif.Prog.c105_time_limit_false"
   ],
   "note": "For one worker and no time limits, for runs of the whole program at the level of locks: equal totals of trials, asked for in one call or in several in turn, give equal trees and equal histories, whatever the schedule, the clock, spurious wake-ups and the logger (c105_reproducible); with time limits if the numbers of completed trials are equal (c105_same_number), else one run is the beginning of the other (c105_prefix, c105_comparable); crashes are reproduced too (c105_crash). The two negative parts of the statement are c105_two_workers_false and c105_time_limit_false. Random draws and iteration orders are a fixed function of the moves made so far; recommendations asked for between the calls (which would draw further numbers) are taken to be the same in both runs."
  },
  {
   "property": "C106",
   "status": "proved",
   "theorems": [
    "Verif.Search.c106_fresh",
    "Verif.Search.c106_mcts",
    "Verif.Search.c106_goes_on",
    "Verif.Search.c106_no_crash",
    "Verif.Search.c106_all_nodes",
    "Verif.Search.c106_horizon",
    "Verif.Search.c106_uct",
    "Verif.Search.c106_ments",
    "Verif.Search.c106_dbments",
    "Verif.Search.c106_dents",
    "Verif.Search.c106_est",
    "Verif.Search.c106_tents",
    "Verif.Search.c106_rents_throws",
    "Verif.Search.c106_rents_false",
    "Verif.Search.c106_mcts_false",
    "Verif.Search.c106_table_false"
   ],
   "note": "Every state of a search whose root is moved down any number of times; simulation by searches from a new node. Algorithms: UCT/PUCT, MENTS, DB-MENTS, TENTS, DENTS, EST. c106_mcts covers mcts mode; the negative parts of the statement are c106_rents_false, c106_mcts_false, c106_table_false."
  },
  {
   "property": "C107",
   "status": "proved",
   "theorems": [
    "Verif.Search.c107_decision_running",
    "Verif.Search.c107_chance_running",
    "Verif.Search.c107_decision",
    "Verif.Search.c107_chance",
    "Verif.Search.c107_root",
    "Verif.Search.c107_root_running",
    "Verif.Search.c107_full_depth",
    "Verif.Search.c107_mcts_false",
    "Verif.Search.c107_left_out",
    "Verif.Search.c107_uct",
    "Verif.Search.c107_ments",
    "Verif.Search.c107_rents",
    "Verif.Search.c107_tents",
    "Verif.Search.c107_tents_root",
    "Verif.Search.c107_dbments",
    "Verif.Search.c107_dents",
    "Verif.Search.c107_est",
    "Verif.Search.c107_dents_dp",
    "Verif.Search.c107_dents_emp",
    "Verif.Search.c107_ments_false"
   ],
   "note": "All counters of all algorithms at rest and while trials run; c107_mcts_false and c107_ments_false are the negative part of the statement. The counter of the DP backup, of average returns and of entropies of DENTS and EST start at one at decision nodes; those of average returns, of entropies and of UCT do not count leaves."
  },
  {
   "property": "C108",
   "status": "proved",
   "theorems": [
    "Verif.Backups.c108_rounds",
    "Verif.Backups.c108_root",
    "Verif.Backups.c108_recommends_optimal",
    "Verif.Backups.c108_stale_false",
    "Verif.Backups.c108_sharp"
   ],
   "note": "For every algorithm with DP values (HasDp), any number of workers, with or without table. Rounds start and end with no trial running. Sharpness is shown for games of two moves only. How likely a round is in a random search is the subject of C109."
  },
  {
   "property": "C109",
   "status": "proved",
   "theorems": [
    "Verif.Random.c109_play_followed",
    "Verif.Random.c109_rounds",
    "Verif.Random.c109_prob_range",
    "Verif.Random.c109_solves",
    "Verif.Random.c109_dbments_solves",
    "Verif.Random.c109_dents_solves",
    "Verif.Random.c109_est_solves",
    "Verif.Random.c109_bound_vanishes"
   ],
   "note": "For deterministic games, values by dynamic programming and every search that explores, with or without a transposition table. For DB-MENTS, DENTS and EST the exploration probability must not be below the 1e-16 at which the code drops actions, as in C77. The bound is explicit (number of calls times number of plays times missBound)."
  },
  {
   "property": "C11",
   "status": "proved",
   "theorems": [
    "Verif.Search.c11_one_node_per_trial",
    "Verif.Search.c11_each_trial_grows_once"
   ],
   "note": "Every algorithm that selects valid actions, every schedule, any number of workers. "
  },
  {
   "property": "C110",
   "status": "proved",
   "theorems": [
    "Verif.Random.c110_limit",
    "Verif.Random.c110_limit_prob",
    "Verif.Random.c110_limit_productive",
    "Verif.Random.c110_trials_end",
    "Verif.Random.c110_mcts_trials_end",
    "Verif.Random.c110_value",
    "Verif.Random.c110_explores",
    "Verif.Random.c110_dents_explores",
    "Verif.Random.c110_dbments",
    "Verif.Random.c110_dents",
    "Verif.Random.c110_est",
    "Verif.Random.c110_ments",
    "Verif.Random.c110_tents",
    "Verif.Random.c110_uct",
    "Verif.Random.c110_puct",
    "Verif.Random.c110_constructs"
   ],
   "note": "Reals instead of doubles. The theorems with a probability bound are for deterministic games without transposition table (the default); at most 10^14 actions per state keep the exploration probability above the 1e-16 at which the code drops actions, and L times the largest reward must stay below 2^1023 (so that values are above numeric_limits<double>::lowest()). RENTS is not included (C106 has its failure)."
  },
  {
   "property": "C111",
   "status": "proved",
   "theorems": [
    "Verif.Random.c111_exact",
    "Verif.Random.c111_soft",
    "Verif.Random.c111_mean",
    "Verif.Random.c111_mean_exact",
    "Verif.Random.c111_search",
    "Verif.Random.c111_dbments",
    "Verif.Random.c111_dents",
    "Verif.Random.c111_est",
    "Verif.Random.c111_ments",
    "Verif.Random.c111_sampled",
    "Verif.Random.c111_converges",
    "Verif.Random.c111_chance",
    "Verif.Random.c111_dbments_chance",
    "Verif.Random.c111_dents_chance",
    "Verif.Random.c111_est_chance"
   ],
   "note": "Reals instead of doubles; no transposition table. The recommendation must be by value (the default), with a threshold of at most 1 (deterministic part) or at most the number of samples (part with chance). MENTS: constant temperature, default settings in c111_ments. Evaluation passes a dangling context unless the environment keeps it (C60); the returns do not depend on the context in this model."
  },
  {
   "property": "C112",
   "status": "proved",
   "theorems": [
    "Verif.Sys.c112_never_stuck",
    "Verif.Sys.c112_bounded_wait",
    "Verif.Sys.c112_fair_run_returns",
    "Verif.Sys.c112_can_return",
    "Verif.Sys.c112_run",
    "Verif.Sys.c112_first_run"
   ],
   "note": "Trials are the search's steps at the granularity of its critical sections; set_new_env is left out (C06). Selects is the property that the algorithm's selection finds an action; C74 proves it for UCT, PUCT, MENTS, RENTS, TENTS, DB-MENTS, EST and for DENTS with exploration. With several table mutexes and a transposition table the lock level can deadlock (C80, C81): that is below this model."
  },
  {
   "property": "C113",
   "status": "partial",
   "theorems": [
    "Verif.Average.c113_est_false",
    "Verif.Average.c113_dents_false",
    "Verif.Average.c113_est_wrong",
    "Verif.Average.c113_bound_vanishes",
    "Verif.Average.c113_never_above_partial",
    "Verif.Average.c113_last_move_partial",
    "Verif.Average.c113_one_move_partial"
   ],
   "note": "The expected property is false: c113_est_false and c113_dents_false (value temperature zero) bound the probability of an optimal recommendation by 2 (10/11)^N in a game of two moves, for every exploration setting, schedule and number of workers; c113_est_wrong says that a search that is not idle then ends with a wrong recommendation. The true part (never above, exact for last moves, one-move games are solved) is for deterministic environments without transposition table. Reals instead of doubles."
  },
  {
   "property": "C114",
   "status": "partial",
   "theorems": [
    "Verif.Prior.c114_exact",
    "Verif.Prior.c114_excluded",
    "Verif.Prior.c114_throws_false",
    "Verif.Prior.c114_two_actions_false",
    "Verif.Prior.c114_null_pointer_false",
    "Verif.Prior.c114_old_nodes_partial",
    "Verif.Prior.c114_null_false",
    "Verif.Prior.c114_first",
    "Verif.Prior.c114_search_throws_false",
    "Verif.Prior.c114_no_more_false",
    "Verif.Prior.c114_any_base_throws_false",
    "Verif.Prior.c114_tents_throws_false",
    "Verif.Prior.c114_rents_throws_false",
    "Verif.Prior.c114_any_base_old_nodes_partial",
    "Verif.Prior.c114_null_tents_false",
    "Verif.Prior.c114_null_rents_false",
    "Verif.Prior.c114_tents_pick_false",
    "Verif.Prior.c114_rents_pick_false"
   ],
   "note": "The expected property is false: selecting throws once an entry of the mixture is negative (c114_throws_false, c114_two_actions_false), in whole searches of a one-move game (c114_search_throws_false, c114_no_more_false; c114_first shows that the search gets there), and with a null pointer if there is no prior function (c114_null_pointer_false, c114_null_false). c114_exact is the exact condition for the mixture to be non-negative; c114_old_nodes_partial is what holds for every weight. The same for TENTS and RENTS: c114_any_base_throws_false, c114_tents_throws_false, c114_rents_throws_false (with c114_tents_pick_false and c114_rents_pick_false for the one-move game), c114_null_tents_false, c114_null_rents_false and c114_any_base_old_nodes_partial. Reals instead of doubles. An exception is an outcome of select_action; the search model then takes no step."
  },
  {
   "property": "C115",
   "status": "partial",
   "theorems": [
    "Verif.Pool.c115_no_trial_false",
    "Verif.Pool.c115_zero_threads_false",
    "Verif.Pool.c115_time_limit_false",
    "Verif.Pool.c115_nothing_asked_partial",
    "Verif.Pool.c115_some_threads_partial",
    "Verif.Eval.c115_rollouts_false"
   ],
   "note": "The expected property is false for zero threads (four theorems with suffix _false). With at least one thread c115_some_threads_partial and C04, C47 apply. A negative number of threads is not modelled: for the pool the constructor of the vector of threads then throws."
  },
  {
   "property": "C116",
   "status": "partial",
   "theorems": [
    "Verif.PrintMap.c116_vector",
    "Verif.PrintMap.c116_map",
    "Verif.PrintMap.c116_unambiguous",
    "Verif.PrintMap.c116_ambiguous_false",
    "Verif.PrintMap.c116_int_actions",
    "Verif.PrintMap.c116_int_states",
    "Verif.PrintMap.c116_table_iff",
    "Verif.PrintMap.c116_first_tree_partial",
    "Verif.PrintMap.c116_destroyed_false",
    "Verif.PrintMap.c116_second_tree_false"
   ],
   "note": "Vectors and maps: proved (c116_vector, c116_map, c116_unambiguous, c116_int_actions, c116_int_states). For the table the property is false (c116_destroyed_false, c116_second_tree_false); c116_table_iff is the exact condition and c116_first_tree_partial what holds. What is printed for a node is a pointer, a parameter of the model."
  },
  {
   "property": "C117",
   "status": "partial",
   "theorems": [
    "Verif.Pool.c117_budget",
    "Verif.Pool.c117_no_limit",
    "Verif.Pool.c117_forward_partial",
    "Verif.Pool.c117_late_false",
    "Verif.Pool.c117_after_return_false",
    "Verif.Pool.c117_early_false"
   ],
   "note": "False if the clock of the machine is set (c117_late_false, c117_after_return_false, c117_early_false). What holds: c117_forward_partial (clock not set backwards), c117_no_limit (no time limits), c117_budget (always). Setting the clock is modelled for the pool only, not for the logger."
  },
  {
   "property": "C118",
   "status": "partial",
   "theorems": [
    "Verif.Fp.c118_nonneg",
    "Verif.Fp.c118_accurate",
    "Verif.Fp.c118_equal_false",
    "Verif.Fp.c118_below_false",
    "Verif.Fp.c118_equal_partial",
    "Verif.Fp.c118_exact_mean_partial",
    "Verif.Fp.c118_exact_equal_partial",
    "Verif.Fp.c118_return",
    "Verif.Fp.c118_mean_of_rollouts"
   ],
   "note": "Exactness for equal returns is false (c118_equal_false, c118_below_false); c118_equal_partial is what holds; c118_exact_mean_partial and c118_exact_equal_partial say when it is exact. Non-negativity and accuracy: proved (c118_nonneg, c118_accurate, c118_return, c118_mean_of_rollouts; the mean of given returns is c84_mean). Overflow of doubles is not modelled; the accuracy of pow is a hypothesis."
  },
  {
   "property": "C119",
   "status": "partial",
   "theorems": [
    "Verif.Pool.c119_current",
    "Verif.Pool.c119_constructor",
    "Verif.Pool.c119_documented_false",
    "Verif.Pool.c119_null_false",
    "Verif.Pool.c119_every_read_false",
    "Verif.Pool.c119_no_null_partial"
   ],
   "note": "The installed environment is the one used: proved (c119_current). False that null pointers are refused (c119_null_false, c119_every_read_false) and that a root node is made (c119_documented_false); c119_constructor and c119_no_null_partial are what holds. Reads of the installed triple are single steps of the model, see C06 for swaps during a trial."
  },
  {
   "property": "C12",
   "status": "proved",
   "theorems": [
    "Verif.Search.c12_backups_exact",
    "Verif.Search.c12_backups_in_order"
   ],
   "note": "Every algorithm that selects valid actions, every schedule, any number of workers. Rewards in any additive monoid (exact arithmetic)."
  },
  {
   "property": "C120",
   "status": "partial",
   "theorems": [
    "Verif.Ments.c120_in_flight",
    "Verif.Ments.c120_no_prior_partial",
    "Verif.Ments.c120_prior_false"
   ],
   "note": "Proved without a prior policy (c120_no_prior_partial); false with one, with a concrete search (c120_prior_false). c120_in_flight says what the value is in both cases."
  },
  {
   "property": "C13",
   "status": "proved",
   "theorems": [
    "Verif.Search.c13_visits_at_most_trials",
    "Verif.Search.c13_root_visits",
    "Verif.Search.c13_decision_visits",
    "Verif.Search.c13_chance_visits",
    "Verif.Search.c13_chance_visits_tree"
   ],
   "note": "Every algorithm that selects valid actions, every schedule, any number of workers. Chance node sums over children visits need the table off; with the table on c13_chance_visits counts traversals. No node is visited more often than there are trials."
  },
  {
   "property": "C14",
   "status": "proved",
   "theorems": [
    "Verif.Search.c14_chance_child",
    "Verif.Search.c14_decision_child",
    "Verif.Search.c14_acyclic",
    "Verif.Search.c14_parents"
   ],
   "note": "Every algorithm that selects valid actions, every schedule, any number of workers. "
  },
  {
   "property": "C15",
   "status": "proved",
   "theorems": [
    "Verif.Search.c15_create_idempotent",
    "Verif.Search.c15_create_idempotent_chance",
    "Verif.Search.c15_children_never_lost",
    "Verif.Search.c15_same_child",
    "Verif.Search.c15_keys_distinct"
   ],
   "note": "Every algorithm that selects valid actions, every schedule, any number of workers. "
  },
  {
   "property": "C16",
   "status": "proved",
   "theorems": [
    "Verif.Search.c16_players_alternate"
   ],
   "note": "Every algorithm that selects valid actions, every schedule, any number of workers. "
  },
  {
   "property": "C17",
   "status": "proved",
   "theorems": [
    "Verif.Search.c17_heuristic_values",
    "Verif.Search.c17_return_at_sink"
   ],
   "note": "Every algorithm that selects valid actions, every schedule, any number of workers. "
  },
  {
   "property": "C18",
   "status": "proved",
   "theorems": [
    "Verif.Search.c18_table_unique"
   ],
   "note": "Every algorithm that selects valid actions, every schedule, any number of workers. Initial table: expired leftovers only."
  },
  {
   "property": "C19",
   "status": "partial",
   "theorems": [
    "Verif.Search.c19_lookups_never_fail_partial",
    "Verif.Search.c19_only_table_failures",
    "Verif.Search.c19_expired_entry_false",
    "Verif.Search.c19_zero_mutexes_false",
    "Verif.Search.c19_mutexes_do_not_exclude"
   ],
   "note": "False of the code: expired entries after a tree is destroyed (c19_expired_entry_false) and zero mutexes (c19_zero_mutexes_false). Proved for a fresh manager with at least one mutex; these two are the only failures (c19_only_table_failures)."
  },
  {
   "property": "C20",
   "status": "partial",
   "theorems": [
    "Verif.Locks.c20_no_deadlock_partial",
    "Verif.Locks.c20_mutual_exclusion",
    "Verif.Locks.c20_table_deadlock_false"
   ],
   "note": "Proved without the transposition table (every thread that waits, waits for one that can proceed; mutual exclusion). With the table the property is false of the code: c20_table_deadlock_false exhibits a reachable deadlock."
  },
  {
   "property": "C21",
   "status": "proved",
   "theorems": [
    "Verif.Sampling.c21_in_range",
    "Verif.Sampling.c21_every_value",
    "Verif.Sampling.c21_near_uniform",
    "Verif.Sampling.c21_empty_range",
    "Verif.Sampling.c21_equal_bounds_ub"
   ],
   "note": "getRandInt models the modulo reduction of include/thts_manager.h; RAND_MAX is a parameter."
  },
  {
   "property": "C22",
   "status": "proved",
   "theorems": [
    "Verif.Sampling.c22_returns_maximiser",
    "Verif.Sampling.c22_every_maximiser",
    "Verif.Sampling.c22_only_maximisers_matter",
    "Verif.Sampling.c22_no_key_ub"
   ],
   "note": "For every map, iteration order and random number; lowest() is a parameter; NaN is not modelled."
  },
  {
   "property": "C23",
   "status": "partial",
   "theorems": [
    "Verif.Sampling.c23_zero_weight_last_false",
    "Verif.Sampling.c23_zero_weight_last_throws",
    "Verif.Sampling.c23_inverse_cdf_partial",
    "Verif.Sampling.c23_never_throws_partial",
    "Verif.Sampling.c23_probability_partial"
   ],
   "note": "False of the code when the entry visited last has weight zero (c23_zero_weight_last_false, c23_zero_weight_last_throws characterises the failure exactly); proved when the last entry has positive weight. Probabilities are Lebesgue measures of sets of draws."
  },
  {
   "property": "C24",
   "status": "partial",
   "theorems": [
    "Verif.Sampling.c24_small_sum_false",
    "Verif.Sampling.c24_small_sum_throws",
    "Verif.Sampling.c24_inverse_cdf_partial",
    "Verif.Sampling.c24_never_throws_partial",
    "Verif.Sampling.c24_probability_partial"
   ],
   "note": "False of the code when the weights sum to less than one (c24_small_sum_false, c24_small_sum_throws); proved when they sum to more than one, or to one with a last entry of positive weight."
  },
  {
   "property": "C25",
   "status": "proved",
   "theorems": [
    "Verif.Alias.c25_alias_exact",
    "Verif.Alias.c25_sample_defined"
   ],
   "note": "Exact arithmetic; the table index is uniform in {0..n-1}."
  },
  {
   "property": "C26",
   "status": "partial",
   "theorems": [
    "Verif.Alias.c26_rebuild_frequency_partial",
    "Verif.Alias.c26_updates_take_effect_partial",
    "Verif.Alias.c26_update_sets_weight",
    "Verif.Alias.c26_new_key_false",
    "Verif.Alias.c26_larger_map_false",
    "Verif.Alias.c26_smaller_map_false",
    "Verif.Alias.c26_without_alias"
   ],
   "note": "Proved for every history of updates that keeps the number of keys; false of the code otherwise (c26_new_key_false, c26_larger_map_false, c26_smaller_map_false)."
  },
  {
   "property": "C27",
   "status": "proved",
   "theorems": [
    "Verif.Uct.c27_decision_average",
    "Verif.Uct.c27_chance_average",
    "Verif.Uct.c27_heuristic_vanishes",
    "Verif.Uct.c27_every_trial_backed_up"
   ],
   "note": "Exact arithmetic over any linearly ordered field."
  },
  {
   "property": "C28",
   "status": "proved",
   "theorems": [
    "Verif.Uct.c28_untried_first_at_node",
    "Verif.Uct.c28_untried_first"
   ],
   "note": "Every history of every concurrent search, no prior, epsilon at most 0."
  },
  {
   "property": "C29",
   "status": "proved",
   "theorems": [
    "Verif.Uct.c29_argmax",
    "Verif.Uct.c29_selection_total",
    "Verif.Uct.c29_uct_argmax",
    "Verif.Uct.c29_puct_argmax",
    "Verif.Uct.c29_every_selection"
   ],
   "note": "Exact real arithmetic; needs the best value to be at least lowest() for definedness, which every finite double is."
  },
  {
   "property": "C30",
   "status": "proved",
   "theorems": [
    "Verif.Uct.c30_most_visited",
    "Verif.Uct.c30_best_average",
    "Verif.Uct.c30_recommends_selected_actions"
   ],
   "note": "As C29; recommendation evaluated on one consistent snapshot of the node (the code reads the children without locks)."
  },
  {
   "property": "C31",
   "status": "proved",
   "theorems": [
    "Verif.Ments.c31_documented_mixture",
    "Verif.Ments.c31_is_distribution",
    "Verif.Ments.c31_after_dropping"
   ],
   "note": "Exact reals. The code computes the documented mixture; it is a distribution with at least lambda/|A| on every action for well-formed configurations (prior weight at most log 4); dropping entries below 1e-16 loses at most |A|*1e-16."
  },
  {
   "property": "C32",
   "status": "proved",
   "theorems": [
    "Verif.Ments.c32_log_sum_exp",
    "Verif.Ments.c32_q_values",
    "Verif.Ments.c32_bounds",
    "Verif.Ments.c32_stable"
   ],
   "note": "Exact reals. The backed-up value is temp*log-sum-exp for every starting sentinel, with the standard bounds; the exponentials taken never exceed one."
  },
  {
   "property": "C33",
   "status": "proved",
   "theorems": [
    "Verif.Backups.c33_dp_backup",
    "Verif.Backups.c33_entropy_backup",
    "Verif.Backups.c33_order",
    "Verif.Backups.c33_ignored",
    "Verif.Backups.c33_no_child",
    "Verif.Ments.c33_soft_backup"
   ],
   "note": "DP, soft and entropy backups; exact arithmetic in any ordered field (reals for soft and entropy)."
  },
  {
   "property": "C34",
   "status": "partial",
   "theorems": [
    "Verif.Ments.c34_last_action_is_centred",
    "Verif.Ments.c34_mean_false",
    "Verif.Ments.c34_mean_partial"
   ],
   "note": "False of the code: the loop never advances its counter, so the action visited last is centred instead of the mean (c34_mean_false, c34_last_action_is_centred); proved for priors with equal probabilities."
  },
  {
   "property": "C35",
   "status": "proved",
   "theorems": [
    "Verif.Decay.c35_inv_sqrt",
    "Verif.Decay.c35_inv_log",
    "Verif.Decay.c35_sigmoid",
    "Verif.Decay.c35_at_least_min",
    "Verif.Decay.c35_at_most_init",
    "Verif.Decay.c35_antitone",
    "Verif.Decay.c35_limit"
   ],
   "note": "Exact reals, for the three decay functions of the library and any function with the same properties."
  },
  {
   "property": "C36",
   "status": "proved",
   "theorems": [
    "Verif.Dents.c36_dbments_never_fails",
    "Verif.Dents.c36_est_never_fails",
    "Verif.Ments.c36_selects_valid_action",
    "Verif.Ments.c36_probability",
    "Verif.Ments.c36_values_finite",
    "Verif.Ments.c36_never_fails_in_search",
    "Verif.Ments.c36_can_continue",
    "Verif.Ments.c36_child_exists"
   ],
   "note": "Exact reals. Node level for every Q-function; and in every reachable state of a MENTS search with any number of workers. The probability of each action is the Lebesgue measure of its draws. Also for DB-MENTS, EST and (positive epsilon, see C57) DENTS."
  },
  {
   "property": "C37",
   "status": "proved",
   "theorems": [
    "Verif.Dents.c37_dents_recommends",
    "Verif.Dents.c37_dents_in_search",
    "Verif.Ments.c37_best_soft_value",
    "Verif.Ments.c37_most_visited",
    "Verif.Ments.c37_valid_in_search",
    "Verif.Ments.c37_best_value",
    "Verif.Ments.c37_no_child"
   ],
   "note": "MENTS soft values and most visited, DP values, empirical values. The DP and empirical variants compare backup counts with the threshold and consider only actions with a child. Also DENTS/EST recommendations."
  },
  {
   "property": "C38",
   "status": "proved",
   "theorems": [
    "Verif.Dents.c38_instances",
    "Verif.Backups.c38_backup_is_best",
    "Verif.Backups.c38_always_finite",
    "Verif.Backups.c38_backup_in_search",
    "Verif.Backups.c38_counts"
   ],
   "note": "All algorithms with the DP mixin (HasDp). Exact arithmetic; a value that is not finite is an explicit outcome shown not to occur. Instances: DB-MENTS, DENTS, EST."
  },
  {
   "property": "C39",
   "status": "proved",
   "theorems": [
    "Verif.Dents.c39_dents",
    "Verif.Backups.c39_bellman_consistent",
    "Verif.Backups.c39_children_backed"
   ],
   "note": "Proved for any number of workers whenever no trial is running (stronger than single-threaded), without transposition table; every child of a decision node is backed up then."
  },
  {
   "property": "C40",
   "status": "proved",
   "theorems": [
    "Verif.Dents.c40_averages_bounded",
    "Verif.Backups.c40_dp_values_bounded",
    "Verif.Backups.c40_returns_bounded",
    "Verif.Backups.c40_uct_averages_bounded"
   ],
   "note": "DP values (all algorithms with the mixin), UCT/PUCT averages and the returns passed to backups; bounds (levels left + 1)*[lo,hi] with lo <= 0 <= hi. Also DENTS/EST averages."
  },
  {
   "property": "C41",
   "status": "proved",
   "theorems": [
    "Verif.Backups.c41_local_entropy",
    "Verif.Backups.c41_entropy_nonneg",
    "Verif.Backups.c41_entropy_upper",
    "Verif.Backups.c41_entropy_range",
    "Verif.Backups.c41_subtree_entropy",
    "Verif.Backups.c41_order",
    "Verif.Backups.c41_single_player_nonneg",
    "Verif.Backups.c41_single_player_nonneg_chance"
   ],
   "note": "Exact reals."
  },
  {
   "property": "C42",
   "status": "proved",
   "theorems": [
    "Verif.Dents.c42_dents_tried",
    "Verif.Dents.c42_est_tried",
    "Verif.Dents.c42_untried",
    "Verif.Dents.c42_agree_at_zero_temp",
    "Verif.Dents.c42_difference",
    "Verif.Dents.c42_value_temp_decays",
    "Verif.Dents.c42_value_temp_constant"
   ],
   "note": "Exact reals. Q-values of tried and untried actions for DENTS and EST, agreement at temperature 0, their difference, and the decay of the value temperature."
  },
  {
   "property": "C43",
   "status": "proved",
   "theorems": [
    "Verif.Tents.c43_updates_never_throw",
    "Verif.Tents.c43_maps_consistent",
    "Verif.Tents.c43_backup_finds_action"
   ],
   "note": "Exact reals, valid actions without repetitions. For every sequence of updates of the maps, and in every reachable state of a TENTS search with any number of workers; includes that the context always holds the action the trial selected."
  },
  {
   "property": "C44",
   "status": "proved",
   "theorems": [
    "Verif.Tents.c44_sparse_set",
    "Verif.Tents.c44_weights",
    "Verif.Tents.c44_spmax",
    "Verif.Tents.c44_backup_value",
    "Verif.Tents.c44_never_fails_in_search",
    "Verif.Tents.c44_can_continue"
   ],
   "note": "Exact reals. Weights are the Euclidean projection onto the simplex, spmax is the maximum of expected value plus Tsallis entropy; values in terms of the values stored at the node (whether these are current is C58). Selection never fails in any reachable state."
  },
  {
   "property": "C45",
   "status": "proved",
   "theorems": [
    "Verif.Tents.c45_finds_parent_policy",
    "Verif.Tents.c45_selection",
    "Verif.Tents.c45_unlisted",
    "Verif.Tents.c45_all_unlisted",
    "Verif.Tents.c45_backup_value",
    "Verif.Tents.c45_values_finite",
    "Verif.Tents.c45_can_continue",
    "Verif.Tents.c45_positive_root_depth_throws"
   ],
   "note": "Exact reals. For every reachable state with a root of depth zero, any number of workers, selection and backup; the probability of each action is the Lebesgue measure of its draws. With a root of positive depth the first selection always throws (c45_positive_root_depth_throws)."
  },
  {
   "property": "C46",
   "status": "proved",
   "theorems": [
    "Verif.Eval.c46_follows_tree",
    "Verif.Eval.c46_takes_recommendation",
    "Verif.Eval.c46_uniform_after_missing",
    "Verif.Eval.c46_copy_starts_at_root",
    "Verif.Eval.c46_in_rollouts"
   ],
   "note": "Every tree (any search state), every step sequence; and in rollouts, for every thread and interleaving. 'Uniform' is: the valid action whose index is the random draw reduced to the number of actions."
  },
  {
   "property": "C47",
   "status": "proved",
   "theorems": [
    "Verif.Eval.c47_each_once",
    "Verif.Eval.c47_exact_count",
    "Verif.Eval.c47_return_is_sum",
    "Verif.Eval.c47_can_continue"
   ],
   "note": "Every n (negative: none), every t >= 1, every interleaving; returns are the sums of rewards of the rollouts; no deadlock if every action has an outcome."
  },
  {
   "property": "C48",
   "status": "partial",
   "theorems": [
    "Verif.Eval.c48_never_finishes",
    "Verif.Eval.c48_length_limit_false",
    "Verif.Eval.c48_length_partial"
   ],
   "note": "False of the code: num_actions_taken is never incremented, so max_trial_length has no effect once positive (c48_length_limit_false; without sink states no rollout ever finishes, c48_never_finishes). Proved: no actions when the limit is not positive, and length bounded by the environment's longest walk."
  },
  {
   "property": "C49",
   "status": "partial",
   "theorems": [
    "Verif.Eval.c49_mean",
    "Verif.Eval.c49_stddev_false",
    "Verif.Eval.c49_stddev_partial"
   ],
   "note": "Exact reals. The mean is proved; the standard deviation is false: get_stddev_return returns the sample variance (c49_stddev_false, c49_stddev_partial) and is NaN for one return."
  },
  {
   "property": "C50",
   "status": "partial",
   "theorems": [
    "Verif.Sys.c50_entries",
    "Verif.Sys.c50_entries_of_run",
    "Verif.Sys.c50_first_run_partial",
    "Verif.Sys.c50_every_dth_false",
    "Verif.Sys.c50_uninitialised_false"
   ],
   "note": "Holds in the first run if the uninitialised counter is zero (c50_first_run_partial). False in later runs (c50_every_dth_false: the mark of the last log is reset, the counter is not) and for other initial values (c50_uninitialised_false). c50_entries_of_run describes every run exactly."
  },
  {
   "property": "C51",
   "status": "partial",
   "theorems": [
    "Verif.Sys.c51_first_run_partial",
    "Verif.Sys.c51_accumulates_false",
    "Verif.Sys.c51_overcounts_false"
   ],
   "note": "Holds for the first run without time limit (c51_first_run_partial). False for later runs: the pool compares the count of all trials with the size of the current run, so that prior runtime is not updated (c51_accumulates_false) or is updated in the middle of a run (c51_overcounts_false)."
  },
  {
   "property": "C52",
   "status": "proved",
   "theorems": [
    "Verif.Context.c52_last_put",
    "Verif.Context.c52_independent",
    "Verif.Context.c52_typed_get",
    "Verif.Context.c52_depth_keys",
    "Verif.Context.c52_by_depth"
   ],
   "note": "Bucket model of unordered_map with arbitrary hash and rehash policy (Model/Context.lean); depth keys proved distinct (decimal printing is injective), which justifies the by-depth context of the search model."
  },
  {
   "property": "C53",
   "status": "partial",
   "theorems": [
    "Verif.Print.c53_what_is_shown",
    "Verif.Print.c53_each_once_partial",
    "Verif.Print.c53_brackets_match",
    "Verif.Print.c53_chance_nodes",
    "Verif.Print.c53_negative_depth",
    "Verif.Print.c53_builtin_text",
    "Verif.Print.c53_table_repeats_false"
   ],
   "note": "Shown nodes, cut-off marks, values and brackets are exact for every reachable tree and every depth (also negative ones, which mean no limit). \"Each exactly once\" holds without transposition table (c53_each_once_partial) and is false with one (c53_table_repeats_false: a shared node is printed below each parent)."
  },
  {
   "property": "C54",
   "status": "partial",
   "theorems": [
    "Verif.Types.c54_states",
    "Verif.Types.c54_actions",
    "Verif.Types.c54_table_keys",
    "Verif.Types.c54_maps_by_state",
    "Verif.Types.c54_maps_by_action",
    "Verif.Types.c54_maps_by_id",
    "Verif.Types.c54_typed_distr_false",
    "Verif.Types.c54_abstract_throws"
   ],
   "note": "Holds for maps keyed by pointers to State/Observation/Action and for the transposition table. False for the typed distributions (IntStateDistr, IntPairStateDistr, Int3TupleStateDistr), which are keyed by address (c54_typed_distr_false)."
  },
  {
   "property": "C55",
   "status": "partial",
   "theorems": [
    "Verif.Ments.c55_pseudo_q_monotone_false",
    "Verif.Ments.c55_pseudo_q_monotone_partial"
   ],
   "note": "False of the code: probability 0 is mapped to -32 but 1e-20 to its logarithm, about -46 (c55_pseudo_q_monotone_false); proved for probabilities that are zero or at least exp(-32)."
  },
  {
   "property": "C56",
   "status": "proved",
   "theorems": [
    "Verif.Dents.c56_average_returns"
   ],
   "note": "Exact reals, every schedule and number of workers, no transposition table."
  },
  {
   "property": "C57",
   "status": "partial",
   "theorems": [
    "Verif.Dents.c57_finite_partial",
    "Verif.Dents.c57_never_fails_partial",
    "Verif.Dents.c57_epsilon_zero_false"
   ],
   "note": "False of the code for epsilon = 0: the policy of a node can give an untried action probability 0, the entropy 0*log 0 is NaN, and the next selection fails (c57_epsilon_zero_false, a reachable state of a one-state environment). Proved for every epsilon > 0."
  },
  {
   "property": "C58",
   "status": "partial",
   "theorems": [
    "Verif.Tents.c58_settled_sparsemax_partial",
    "Verif.Tents.c58_single_worker_partial",
    "Verif.Tents.c58_sparsemax_false"
   ],
   "note": "False of the code when the temperature decays: the sparse set is computed from values divided by an older temperature (c58_sparsemax_false, first selection of a single worker). Proved for a constant temperature at every node that no unfinished trial has passed since its last backup, hence for every selection of a single worker."
  },
  {
   "property": "C59",
   "status": "proved",
   "theorems": [
    "Verif.Eval.c59_actions_valid",
    "Verif.Eval.c59_uct",
    "Verif.Eval.c59_ments",
    "Verif.Eval.c59_other_root_false"
   ],
   "note": "For any algorithm whose recommendations are valid at every node; instances for UCT (visits) and MENTS. The tree must come from the evaluation's initial state (c59_other_root_false shows that this is needed)."
  },
  {
   "property": "C60",
   "status": "partial",
   "theorems": [
    "Verif.Eval.c60_context_alive_iff",
    "Verif.Eval.c60_dangling_context_false",
    "Verif.Eval.c60_kept_context_partial"
   ],
   "note": "False of the code: run_rollout keeps a reference to the object of a temporary shared_ptr; with the default context every action is chosen with a dangling reference (c60_dangling_context_false). Holds exactly when the environment keeps its own reference."
  },
  {
   "property": "C61",
   "status": "partial",
   "theorems": [
    "Verif.Sys.c61_first_run_partial",
    "Verif.Sys.c61_per_delta_false"
   ],
   "note": "Holds in the first run (c61_first_run_partial). False later: the threshold restarts at delta but is compared with the runtime of all runs (c61_per_delta_false)."
  },
  {
   "property": "C62",
   "status": "partial",
   "theorems": [
    "Verif.Sys.c62_first_run_partial",
    "Verif.Sys.c62_monotone_false"
   ],
   "note": "Holds in the first run (c62_first_run_partial). False over several runs (c62_monotone_false)."
  },
  {
   "property": "C63",
   "status": "partial",
   "theorems": [
    "Verif.Sys.c63_columns_false",
    "Verif.Sys.c63_values_lost",
    "Verif.Sys.c63_two_columns_partial"
   ],
   "note": "False always: entries are stored in a vector of the base class, so that backups and values are sliced off (c63_columns_false, c63_values_lost). The two base columns are written (c63_two_columns_partial)."
  },
  {
   "property": "C64",
   "status": "proved",
   "theorems": [
    "Verif.Sys.c64_runs_what_was_asked",
    "Verif.Sys.c64_all_trials_completed",
    "Verif.Sys.c64_trial_correspondence"
   ],
   "note": "Product of the pool, search and logger models; all interleavings; one client thread, no set_new_env. Search steps after a crash are not continued."
  },
  {
   "property": "C65",
   "status": "proved",
   "theorems": [
    "Verif.Sys.c65_logged_visits",
    "Verif.Sys.c65_visits_monotone",
    "Verif.Sys.c65_not_exact"
   ],
   "note": "Product model as for C64; c65_not_exact shows that the count is not just the number of finished trials."
  },
  {
   "property": "C66",
   "status": "proved",
   "theorems": [
    "Verif.Backups.c66_minimax_of_tree",
    "Verif.Backups.c66_order_irrelevant"
   ],
   "note": "For every algorithm with DP values (HasDp; instances in c38_instances), without transposition table; decision nodes' data must not change on visits of non-leaves (true of all three algorithms, c39_dents). Values over any ordered field."
  },
  {
   "property": "C67",
   "status": "proved",
   "theorems": [
    "Verif.Backups.c67_exact_value",
    "Verif.Backups.c67_exact_action_values",
    "Verif.Backups.c67_recommends_optimal"
   ],
   "note": "For every algorithm with DP values, without transposition table, recommendation threshold at most one (default 0). Values over any ordered field; `lr` is the reward without observation, assumed to agree with the reward of the one successor."
  },
  {
   "property": "C68",
   "status": "proved",
   "theorems": [
    "Verif.Ments.c68_instances",
    "Verif.Ments.c68_soft_value_of_tree",
    "Verif.Ments.c68_near_game_value",
    "Verif.Ments.c68_near_action_values",
    "Verif.Ments.c68_recommends_near_optimal"
   ],
   "note": "For every algorithm with MENTS soft values (HasSoft; instances in c68_instances), constant temperature, without transposition table; prior (if any) gives every action a probability. Exact reals instead of doubles; threshold at most one visit for the recommendation."
  },
  {
   "property": "C69",
   "status": "partial",
   "theorems": [
    "Verif.Ments.c69_dp_between",
    "Verif.Ments.c69_soft_between_partial",
    "Verif.Ments.c69_soft_between",
    "Verif.Ments.c69_ments_false"
   ],
   "note": "Proved for DP values, and for soft values with mcts mode off. False for soft values in mcts mode: a new non-leaf node has num_backups 0 and is skipped by the chance node, so its heuristic is ignored (c69_ments_false). c69_soft_between_partial covers the successors that some trial went on from."
  },
  {
   "property": "C70",
   "status": "proved",
   "theorems": [
    "Verif.Dents.c70_decision",
    "Verif.Dents.c70_chance",
    "Verif.Dents.c70_constant"
   ],
   "note": "For DENTS in every reachable state of the search (any number of workers, with or without table). The temperature is that of a visit count no larger than the current one. Exact reals instead of doubles."
  },
  {
   "property": "C71",
   "status": "partial",
   "theorems": [
    "Verif.Sampling.c71_uniform_member",
    "Verif.Sampling.c71_uniform_fair",
    "Verif.Sampling.c71_uniform_all",
    "Verif.Sampling.c71_uniform_empty",
    "Verif.Sampling.c71_mixture_component_partial",
    "Verif.Sampling.c71_mixture_false",
    "Verif.Sampling.c71_mixture_probability_partial"
   ],
   "note": "Uniform distributions: proved. Mixtures: proved for weights that are non-negative and sum to one with a positive last weight; false otherwise, as C23: a zero weight in the last place makes sampling throw (c71_mixture_false). Component randomness is any probability space, independent of the draw that picks the component."
  },
  {
   "property": "C72",
   "status": "partial",
   "theorems": [
    "Verif.EnvDefaults.c72_fully_observable",
    "Verif.EnvDefaults.c72_pomdp_without_override",
    "Verif.EnvDefaults.c72_sample_follows_distr_partial",
    "Verif.EnvDefaults.c72_override_ignored_false"
   ],
   "note": "Proved for distributions with a positive last weight (C23). False if an environment declared fully observable overrides only get_observation_distribution_itfc: the sampled observation ignores it (c72_override_ignored_false)."
  },
  {
   "property": "C73",
   "status": "proved",
   "theorems": [
    "Verif.Eval.c73_expected_sum",
    "Verif.Eval.c73_mean_unbiased"
   ],
   "note": "For environments in which every walk of K steps from the initial state ends in a sink state, any productive (non-idle) adaptive scheduler; finite distributions of generator outputs and transitions; exact reals. max_trial_length is positive (it has no further effect, see C48)."
  },
  {
   "property": "C74",
   "status": "partial",
   "theorems": [
    "Verif.Search.c74_never_stuck",
    "Verif.Search.c74_trials_complete",
    "Verif.Search.c74_can_finish",
    "Verif.Search.c74_any_number_of_trials",
    "Verif.Search.c74_uct_selects",
    "Verif.Search.c74_ments_selects",
    "Verif.Search.c74_tents_selects",
    "Verif.Search.c74_rents_selects",
    "Verif.Search.c74_dbments_selects",
    "Verif.Search.c74_est_selects",
    "Verif.Search.c74_dents_selects_partial"
   ],
   "note": "Proved for a table that is unused or fresh with at least one mutex (otherwise C19 is false), fewer than 10^16 actions, RENTS with a root of depth 0, UCT with bounded rewards, DENTS with a positive epsilon (false for epsilon 0, c57_epsilon_zero_false). Blocks under one lock are atomic; the locks themselves are C20."
  },
  {
   "property": "C75",
   "status": "proved",
   "theorems": [
    "Verif.Uct.c75_every_action_visited",
    "Verif.Uct.c75_uct",
    "Verif.Uct.c75_puct",
    "Verif.Uct.c75_root",
    "Verif.Uct.c75_every_line"
   ],
   "note": "Over exact reals; the exploration terms of the code (sqrt(log N / n), N^p / n with p > 0), or any that grow likewise. The statement about lines of play is for searches without transposition table."
  },
  {
   "property": "C76",
   "status": "proved",
   "theorems": [
    "Verif.Uct.c76_action_values",
    "Verif.Uct.c76_node_value",
    "Verif.Uct.c76_suboptimal_share",
    "Verif.Uct.c76_recommendation",
    "Verif.Uct.c76_root"
   ],
   "note": "Over exact reals. numeric_limits::lowest is below all returns, the reference integer lowest is not positive."
  },
  {
   "property": "C77",
   "status": "proved",
   "theorems": [
    "Verif.Random.c77_prob_range",
    "Verif.Random.c77_play_missed",
    "Verif.Random.c77_ends",
    "Verif.Random.c77_everything_found",
    "Verif.Random.c77_complete",
    "Verif.Random.c77_bound_vanishes",
    "Verif.Random.c77_bound_vanishes_const",
    "Verif.Random.c77_explore_range",
    "Verif.Random.c77_ments_explores",
    "Verif.Random.c77_dbments_explores",
    "Verif.Random.c77_est_explores",
    "Verif.Random.c77_dents_explores",
    "Verif.Random.c77_uct_explores",
    "Verif.Random.c77_exhausts",
    "Verif.Random.c77_solves",
    "Verif.Random.c77_dents_solves",
    "Verif.Random.c77_est_solves",
    "Verif.Random.c77_dbments_solves",
    "Verif.Random.c77_ments_solves",
    "Verif.Random.c77_uct_finds_everything"
   ],
   "note": "Probabilities are finite sums over the draws, which are taken to be independent and uniform (the pseudo random number generator is not modelled). Over exact reals. For the Boltzmann searches the exploration probability after N trials must be at least 1e-16, below which the code drops actions. UCT and PUCT need epsilon positive. Exact game values need a deterministic environment and no transposition table."
  },
  {
   "property": "C78",
   "status": "partial",
   "theorems": [
    "Verif.LockLevel.c78_no_data_race_partial",
    "Verif.LockLevel.c78_races_only_on_table",
    "Verif.LockLevel.c78_table_race",
    "Verif.LockLevel.c78_accesses_complete_d",
    "Verif.LockLevel.c78_accesses_complete_c",
    "Verif.LockLevel.c78_accesses_complete_table",
    "Verif.LockLevel.c78_mutual_exclusion",
    "Verif.LockLevel.c78_documented_mutex",
    "Verif.LockLevel.c78_mutex_exists"
   ],
   "note": "Proved for a search without transposition table or with at most one table mutex. With two or more mutexes the property is false of the code: c78_table_race exhibits an insertion into the table racing with a lookup; c78_races_only_on_table shows that nodes are still protected. The accesses of a step are declared by a function; c78_accesses_complete_* prove that no step depends on or changes anything it does not declare. Mutable fields of one node are one memory cell. Logger and random number generator mutexes are left out."
  },
  {
   "property": "C79",
   "status": "partial",
   "theorems": [
    "Verif.LockLevel.c79_atomic_partial",
    "Verif.LockLevel.c79_parts_atomic_partial",
    "Verif.LockLevel.c79_rearranged",
    "Verif.LockLevel.c79_unlocked_nodes_partial",
    "Verif.LockLevel.c79_crashes_partial",
    "Verif.LockLevel.c79_tree_atomic_partial",
    "Verif.LockLevel.c79_root_visits_partial",
    "Verif.LockLevel.c79_uct_partial",
    "Verif.LockLevel.c79_ments_partial",
    "Verif.LockLevel.c79_rents_partial",
    "Verif.LockLevel.c79_tents_partial",
    "Verif.LockLevel.c79_est_partial",
    "Verif.LockLevel.c79_dbments_soft_partial",
    "Verif.LockLevel.c79_dbments_dp_partial",
    "Verif.LockLevel.c79_dents_dp_partial",
    "Verif.LockLevel.c79_dents_emp_partial",
    "Verif.LockLevel.c79_dbments_not_atomic",
    "Verif.LockLevel.c79_chain_values_agree"
   ],
   "note": "Proved, without transposition table or with at most one table mutex, for UCT, PUCT, MENTS, RENTS, TENTS and EST (same state and same history), and for the tree, soft, DP and empirical parts of DB-MENTS and DENTS (same events per thread). The full statement is false for DB-MENTS: c79_dbments_not_atomic exhibits a run after which a node's soft value and DP value could not have arisen from whole backups, because the backup locks, reads and unlocks the children twice. With several table mutexes see c78_table_race. The lock-level model is that of C78."
  },
  {
   "property": "C80",
   "status": "partial",
   "theorems": [
    "Verif.LockLevel.c80_every_run_possible",
    "Verif.LockLevel.c80_every_crash_possible",
    "Verif.LockLevel.c80_same_states_partial",
    "Verif.LockLevel.c80_no_crash_partial",
    "Verif.LockLevel.c80_somebody_runs_partial",
    "Verif.LockLevel.c80_never_stuck_partial",
    "Verif.LockLevel.c80_no_deadlock_partial",
    "Verif.LockLevel.c80_can_finish_partial",
    "Verif.LockLevel.c80_every_schedule_ends_partial",
    "Verif.LockLevel.c80_uct_partial",
    "Verif.LockLevel.c80_ments_partial",
    "Verif.LockLevel.c80_rents_partial",
    "Verif.LockLevel.c80_tents_partial",
    "Verif.LockLevel.c80_est_partial",
    "Verif.LockLevel.c80_dbments_partial",
    "Verif.LockLevel.c80_dents_somebody_runs_partial",
    "Verif.LockLevel.c80_dents_partial",
    "Verif.LockLevel.c80_dents_finite_partial",
    "Verif.LockLevel.c80_dbments_runs",
    "Verif.LockLevel.c80_dents_runs",
    "Verif.LockLevel.c80_table_deadlock",
    "Verif.LockLevel.c80_ments_deadlock",
    "Verif.LockLevel.c80_rents_deadlock",
    "Verif.LockLevel.c80_tents_deadlock",
    "Verif.LockLevel.c80_dbments_deadlock",
    "Verif.LockLevel.c80_dents_deadlock",
    "Verif.LockLevel.c80_est_deadlock"
   ],
   "note": "Proved without the transposition table for UCT, PUCT, MENTS, RENTS (root depth 0), TENTS, EST, DB-MENTS and DENTS with a positive epsilon, and for UCT and PUCT also with a table with one mutex; for DENTS with epsilon 0 as far as the mutexes go (its selection can fail: C57). With the table the property is false of every other algorithm: c80_table_deadlock and its instances exhibit a reachable deadlock of two threads on a five-state environment. Completeness (every run of whole blocks is possible with the locks) is proved for every algorithm. The lock-level model is that of C78."
  },
  {
   "property": "C81",
   "status": "partial",
   "theorems": [
    "Verif.Prog.c81_ends_partial",
    "Verif.Prog.c81_comes_to_rest_partial",
    "Verif.Prog.c81_when_joined",
    "Verif.Prog.c81_run_completes",
    "Verif.Prog.c81_lock_order",
    "Verif.Prog.c81_no_race_partial",
    "Verif.Prog.c81_every_run_possible",
    "Verif.Prog.c81_hangs",
    "Verif.Prog.c81_logger",
    "Verif.Prog.c81_logger_when_joined",
    "Verif.Prog.c81_tree_partial",
    "Verif.Prog.c81_visits_partial",
    "Verif.Prog.c81_logged_visits_partial",
    "Verif.Prog.c81_logged_monotone_partial",
    "Verif.Prog.c81_uct_partial",
    "Verif.Prog.c81_ments_partial",
    "Verif.Prog.c81_rents_partial",
    "Verif.Prog.c81_tents_partial",
    "Verif.Prog.c81_est_partial",
    "Verif.Prog.c81_dbments_partial",
    "Verif.Prog.c81_dents_partial",
    "Verif.Prog.c81_ments_hangs",
    "Verif.Prog.c81_rents_hangs",
    "Verif.Prog.c81_tents_hangs",
    "Verif.Prog.c81_dbments_hangs",
    "Verif.Prog.c81_dents_hangs",
    "Verif.Prog.c81_est_hangs",
    "Verif.Prog.c81_run_size_race"
   ],
   "note": "Proved for UCT and PUCT with at most one table mutex, and for MENTS, RENTS (root depth 0), TENTS, EST, DB-MENTS and DENTS (positive epsilon) without the table, under the assumptions of C74 on environment and configuration: a client inside a call without time limit is never stuck and returns in every fair run; what holds when join returns, the lock order and the composition with C79 hold without these assumptions. With the table the property is false of the other algorithms (c81_*_hangs), and reading the run size is a data race if run_trials is called again before join (c81_run_size_race). With a time limit returning is false (C04); then only coming to rest is proved. Simplified: the root mutex section of try_log and the logger section of run_trials are one step each; set_new_env is left out (C06)."
  },
  {
   "property": "C82",
   "status": "partial",
   "theorems": [
    "Verif.Mem.c82_release",
    "Verif.Mem.c82_no_double_free",
    "Verif.Mem.c82_no_leak",
    "Verif.Mem.c82_trials_keep_their_nodes",
    "Verif.Mem.c82_stack_partial",
    "Verif.Mem.c82_stack_needed",
    "Verif.Mem.c82_deep_tree",
    "Verif.Mem.c82_table",
    "Verif.Mem.c82_history",
    "Verif.Mem.c82_leftovers",
    "Verif.Mem.c82_program_partial",
    "Verif.Mem.c82_stack_false",
    "Verif.Mem.c82_second_tree_false"
   ],
   "note": "Proved: what stays alive, destruction once, no leak, the table, histories of trees, running trials; at the level of the whole program once join has returned, for at most one table mutex. False: destruction is recursive, so it overflows any given stack on a deep enough tree (c82_stack_false; it succeeds with room for two nested destructors per level up to the depth limit, c82_stack_partial), and the second tree of a manager with the table can fail (c82_second_tree_false). Reference counts are the numbers of owners in a state, not maintained step by step; handles held inside blocks are not modelled."
  },
  {
   "property": "C83",
   "status": "partial",
   "theorems": [
    "Verif.Props.c83_sample_partial",
    "Verif.Props.c83_uniform_partial",
    "Verif.Props.c83_high_draw_false",
    "Verif.Props.c83_tiny_weight_false",
    "Verif.Props.c83_uniform_false"
   ],
   "note": "Proved: for probabilities above a bound, at most 10^6 keys or so, no exception below 1 - O(n 2^-53), and the draw lies in the key's segment; uniform distributions over at most 2000 outcomes never throw 'too much'. False in general: c83_high_draw_false (ten keys of 0.1, draw 1 - 2^-53), c83_tiny_weight_false ({1.0, 1.05e-16} always throws), c83_uniform_false (36217 equal outcomes throw whenever the last one should be drawn). Assumes round to nearest binary64 for every operation, no overflow."
  },
  {
   "property": "C84",
   "status": "partial",
   "theorems": [
    "Verif.Props.c84_average",
    "Verif.Props.c84_range",
    "Verif.Props.c84_range_heuristic",
    "Verif.Props.c84_heuristic_false",
    "Verif.Props.c84_return",
    "Verif.Props.c84_value",
    "Verif.Props.c84_mean"
   ],
   "note": "Proved: error bound after any number of backups, stays in the interval of the returns (with no heuristic, or a heuristic with a positive number of pseudo trials), suffix returns, the Monte Carlo estimate. False: c84_heuristic_false (a heuristic value with zero pseudo trials overshoots the interval). Overflow is not modelled."
  },
  {
   "property": "C85",
   "status": "partial",
   "theorems": [
    "Verif.Props.c85_policy",
    "Verif.Props.c85_select_partial",
    "Verif.Props.c85_gap_false"
   ],
   "note": "Proved: every probability against the real softmax for an exp with given relative error; selection never throws 'too much' and returns an action for draws below 1 - (5n+9) 2^-53 when the exploration probability is at least n(6n+12) 2^-53. False without exploration: c85_gap_false (soft values 0 and -36.75 at temperature 1: every draw throws). Without prior policy."
  },
  {
   "property": "C86",
   "status": "partial",
   "theorems": [
    "Verif.Props.c86_value_partial",
    "Verif.Props.c86_one_child_partial",
    "Verif.Props.c86_one_child_false",
    "Verif.Props.c86_range_false"
   ],
   "note": "Proved: error bound; exact for one child whose number of backups is a power of two. False: c86_one_child_false, c86_range_false (one child of value 0.1 with three backups gives 0.10000000000000002)."
  },
  {
   "property": "C87",
   "status": "proved",
   "theorems": [
    "Verif.Props.c87_value"
   ],
   "note": "Accuracy of the soft value (temperature times log-sum-exp) computed in doubles, for an exp of relative error alpha and a log of error beta."
  },
  {
   "property": "C88",
   "status": "partial",
   "theorems": [
    "Verif.Props.c88_sparse_partial",
    "Verif.Props.c88_value_partial",
    "Verif.Props.c88_value_everywhere_partial",
    "Verif.Props.c88_policy_partial",
    "Verif.Props.c88_policy_everywhere_partial",
    "Verif.Props.c88_exact_sum",
    "Verif.Props.c88_select_partial",
    "Verif.Props.c88_large_false",
    "Verif.Props.c88_large_one_false",
    "Verif.Props.c88_between_false",
    "Verif.Props.c88_between_partial"
   ],
   "note": "False for values of at least 2^54 temperatures: the sparse set is empty, the value is 1/2, and selecting throws (c88_large_false, c88_large_one_false). Proved for at most 1000 actions and values below 2^53 temperatures: the value is accurate and an action is always selected; the policy is accurate if n^4 B 2^-53 is small, next to the boundary of the sparse set or not. Between 2^53 and 2^54 temperatures it depends on the largest value: false if it is twice an even number, whatever the other value is (c88_between_false, up to two actions), and an action is selected if it is twice an odd number (c88_between_partial)."
  },
  {
   "property": "C89",
   "status": "proved",
   "theorems": [
    "Verif.Props.c89_real_table",
    "Verif.Props.c89_alias",
    "Verif.Props.c89_zero_weight"
   ],
   "note": "Up to 10^6 outcomes; error (8n+11) 2^-53. Overflow of the sum of the weights is not modelled."
  },
  {
   "property": "C90",
   "status": "proved",
   "theorems": [
    "Verif.Random.c90_values_bounded",
    "Verif.Random.c90_solves",
    "Verif.Random.c90_soft_solves",
    "Verif.Random.c90_rare_vanishes",
    "Verif.Random.c90_far_vanishes",
    "Verif.Random.c90_error_limit",
    "Verif.Random.c90_converges",
    "Verif.Random.c90_dents_solves",
    "Verif.Random.c90_est_solves",
    "Verif.Random.c90_dbments_solves",
    "Verif.Random.c90_ments_solves"
   ],
   "note": "DB-MENTS, DENTS and EST with DP values, and the soft values of MENTS; no transposition table; values in the reals. The heuristic of a leaf at the depth limit is part of the value of the game. Quantitative bound and an epsilon-delta version for every algorithm with DP values that explores with a fixed probability."
  },
  {
   "property": "C91",
   "status": "proved",
   "theorems": [
    "Verif.Fp.c91_decision_average",
    "Verif.Fp.c91_chance_average",
    "Verif.Fp.c91_tree_value",
    "Verif.Fp.c91_chance_value",
    "Verif.Fp.c91_game_value",
    "Verif.Fp.c91_recommends"
   ],
   "note": "Averages: in every reachable state of every search (any number of workers, doubles with rounding to nearest even), every node's average is within avgError of the exact mean of the exact returns. DP values: whenever no trial is running, every node's DP value is within dpError per level of the value of the search tree (expectimax with exact arithmetic); in a deterministic game that has been explored completely, within that of the game's value, and the recommended action is within twice that of optimal. Hypotheses: rewards and heuristic values are doubles of size at most rho, at most 2^30 successors, at most 2^50 trials, depth * (8K+3) at most 2^52. Overflow to infinity is excluded by the size bounds of the double model."
  },
  {
   "property": "C92",
   "status": "partial",
   "theorems": [
    "Verif.Search.c92_decision_ints",
    "Verif.Search.c92_chance_ints",
    "Verif.Search.c92_counters",
    "Verif.Search.c92_counters_fit",
    "Verif.Search.c92_unlimited_false",
    "Verif.Search.c92_uct",
    "Verif.Search.c92_ments",
    "Verif.Search.c92_rents",
    "Verif.Search.c92_tents",
    "Verif.Search.c92_dbments",
    "Verif.Search.c92_dents",
    "Verif.Search.c92_est",
    "Verif.Pool.c92_pool",
    "Verif.Pool.c92_pool_fits",
    "Verif.Eval.c92_evaluator",
    "Verif.Eval.c92_evaluator_fits",
    "Verif.Eval.c92_evaluator_false",
    "Verif.Sys.c92_logger",
    "Verif.Sys.c92_logger_fits_partial",
    "Verif.Sys.c92_logger_delta_false",
    "Verif.Sys.c92_logger_uninitialised_false"
   ],
   "note": "Proved for all searches below 2^31 - 3 trials (nodes, counters of every algorithm, pool), for evaluations whose rollouts and threads together are at most 2^31, and for loggers whose counter happens to start at zero as long as trials and interval together fit. Without these limits the property is false: c92_unlimited_false (any search can be continued until the root's visit count does not fit an int), c92_evaluator_false (2^31 - 1 rollouts with several threads always overflow the loop variable), c92_logger_delta_false (an interval of 2^30 overflows after the first entry), c92_logger_uninitialised_false (nothing initialises the logger's counter)."
  },
  {
   "property": "C93",
   "status": "proved",
   "theorems": [
    "Verif.Fp.c93_uct_term",
    "Verif.Fp.c93_puct_term",
    "Verif.Fp.c93_value",
    "Verif.Fp.c93_selects",
    "Verif.Fp.c93_search",
    "Verif.Fp.c93_recommends",
    "Verif.Fp.c93_less_tried_false"
   ],
   "note": "The UCB values of UCT and PUCT with every operation rounded are those of the formula in real arithmetic up to ucbError; in every history of every concurrent search (fewer than 2^31 trials, no epsilon exploration) the action selected is untried or within two such errors of the best; the action recommended by average returns has the best mean of exact returns up to two avgErrors. Assumed of the library: log of relative error at most 1/200, sqrt of less than one unit in the last place, pow of relative error at most 1/200 (exponent not negative). Negative part: c93_less_tried_false. Not covered: fused operations, overflow of doubles."
  },
  {
   "property": "C94",
   "status": "proved",
   "theorems": [
    "Verif.Fp.c94_backup_counts",
    "Verif.Fp.c94_tree_value",
    "Verif.Fp.c94_chance_value",
    "Verif.Fp.c94_game_value",
    "Verif.Fp.c94_action_value",
    "Verif.Fp.c94_recommends"
   ],
   "note": "Doubles without overflow; constant temperature, no prior policy, no transposition table; exp and log are parameters with assumed relative accuracy."
  },
  {
   "property": "C95",
   "status": "proved",
   "theorems": [
    "Verif.Tents.c95_sparse_maximum",
    "Verif.Tents.c95_sparse_value_of_tree",
    "Verif.Tents.c95_near_game_value",
    "Verif.Tents.c95_near_action_values",
    "Verif.Tents.c95_recommends_near_optimal",
    "Verif.Tents.c95_tents_explores",
    "Verif.Tents.c95_rents_explores",
    "Verif.Tents.c95_tents_solves",
    "Verif.Tents.c95_rents_finds_everything",
    "Verif.Tents.c95_tents_stochastic"
   ],
   "note": "The values are real numbers. No transposition table, constant temperature. `c95_tents_solves` and `c95_tents_stochastic` bound the probability under every scheduler that keeps the workers busy; for RENTS exploration is proved (its values depend on the policies of the parents)."
  },
  {
   "property": "C96",
   "status": "proved",
   "theorems": [
    "Verif.Fp.c96_backup_counts",
    "Verif.Fp.c96_tree_value",
    "Verif.Fp.c96_chance_value",
    "Verif.Fp.c96_game_value",
    "Verif.Fp.c96_action_value",
    "Verif.Fp.c96_recommends",
    "Verif.Fp.c96_maps_sound",
    "Verif.Fp.c96_settled_policy",
    "Verif.Fp.c96_single_worker_policy"
   ],
   "note": "Doubles are rational numbers rounded to nearest (no overflow, no NaN); pow is any function with less than two units in the last place of error. The policy statements are for values whose size over the temperature, times the fourth power of the number of actions, is at most 2^53/1000."
  },
  {
   "property": "C97",
   "status": "partial",
   "theorems": [
    "Verif.Template.c97_initial",
    "Verif.Template.c97_sink",
    "Verif.Template.c97_actions",
    "Verif.Template.c97_actions_unfilled",
    "Verif.Template.c97_sample_transition",
    "Verif.Template.c97_reward",
    "Verif.Template.c97_own_context",
    "Verif.Template.c97_boilerplate_context",
    "Verif.Template.c97_transition_partial",
    "Verif.Template.c97_equal_states_throw",
    "Verif.Template.c97_sampling_partial",
    "Verif.Template.c97_observation_distribution_false",
    "Verif.Template.c97_observation_distribution_undefined",
    "Verif.Template.c97_sample_observation",
    "Verif.Template.c97_own_sample_observation",
    "Verif.Template.c97_pomdp_sampling_false",
    "Verif.Template.c97_child",
    "Verif.Template.c97_pomdp_child_false",
    "Verif.Template.c97_transition_false"
   ],
   "note": "Everything is passed on unchanged except: transition distributions in which two pointers lead to equal states (c97_transition_false, c97_equal_states_throw), and observation distributions, which no filled-in template ever returns (c97_observation_distribution_false); so boilerplate observation sampling never works in a partially observable environment (c97_pomdp_sampling_false)."
  },
  {
   "property": "C98",
   "status": "proved",
   "theorems": [
    "Verif.Fp.c98_explores",
    "Verif.Fp.c98_exhausts",
    "Verif.Fp.c98_solves",
    "Verif.Fp.c98_ments_solves",
    "Verif.Fp.c98_dbments_solves",
    "Verif.Fp.c98_bound_vanishes",
    "Verif.Fp.c98_throws"
   ],
   "note": "Proved as stated: c98_ments_solves, c98_dbments_solves (probability of ending near the optimum without an exception), c98_explores (share of every action, failure rate per selection), c98_bound_vanishes, and c98_throws (a search with ten actions throws with positive probability). Deterministic environments without transposition table, constant temperature, no prior policy; exp and log are parameters with assumed relative accuracy; at most 2^50 trials."
  },
  {
   "property": "C99",
   "status": "partial",
   "theorems": [
    "Verif.Dents.c99_weight",
    "Verif.Dents.c99_leaf",
    "Verif.Dents.c99_initial",
    "Verif.Dents.c99_trials",
    "Verif.Dents.c99_chance",
    "Verif.Dents.c99_mcts_partial",
    "Verif.Dents.c99_full_depth_partial",
    "Verif.Dents.c99_false"
   ],
   "note": "False: leaves weigh one however often they are reached, because EntDNode::visit_ent is never called (c99_leaf, c99_false: log 2 / 2 instead of log 2 / 3). The weight of every node is one plus the number of its backups (c99_weight, c99_trials), and the entropy of a chance node is the mean with these weights (c99_chance). For successors that are not leaves, without table and with a positive epsilon: in mcts mode the weights are the numbers of times the trials went there (c99_mcts_partial), outside mcts mode one more (c99_full_depth_partial)."
  }
 ]
}