{
 "claims": [
  {
   "property": "C01",
   "status": "proved",
   "theorems": [
    "Pooya.C01.C01_sanitised",
    "Pooya.C01.C01_legal_unchanged",
    "Pooya.C01.C01_rename_own_name",
    "Pooya.C01.C01_joined"
   ],
   "note": "emend is characterised as the unique byte-wise sanitiser; idempotent; renaming yields the sanitised name."
  },
  {
   "property": "C02",
   "status": "proved",
   "theorems": [
    "Pooya.C02.C02_full_name",
    "Pooya.C02.C02_identifies",
    "Pooya.C02.C02_defined"
   ],
   "note": "full_name is the joined path of names, injective on paths; it returns exactly if the parent chain ends, and always in hierarchies built without cycles."
  },
  {
   "property": "C03",
   "status": "proved",
   "theorems": [
    "Pooya.C03.C03_path_unique",
    "Pooya.C03.C03_lookup",
    "Pooya.C03.C03_throws"
   ],
   "note": "lookup by dotted path returns exactly the signal the path reaches, and throws exactly when the path is blocked."
  },
  {
   "property": "C04",
   "status": "proved",
   "theorems": [
    "Pooya.C04.C04_labels",
    "Pooya.C04.C04_distinct",
    "Pooya.C04.C04_at"
   ],
   "note": "auto labels are the decimal positions; pairwise distinct; lookup by them gives the position."
  },
  {
   "property": "C05",
   "status": "partial",
   "theorems": [
    "Pooya.C05.C05_refuted_throws",
    "Pooya.C05.C05_refuted_ub",
    "Pooya.C05.C05_refuted",
    "Pooya.C05.C05_partial"
   ],
   "note": "False of the code: try_at throws for a missing nested label and is undefined behaviour for a value signal in the middle of a path (witnesses). Partial: labels without a dot, and dotted ones whose first component is missing or which resolve completely."
  },
  {
   "property": "C06",
   "status": "proved",
   "theorems": [
    "Pooya.C06.C06_positions",
    "Pooya.C06.C06_positions_auto",
    "Pooya.C06.C06_subscript",
    "Pooya.C06.C06_labels",
    "Pooya.C06.C06_reachable"
   ],
   "note": "positions, labels and reachability of a constructed bus."
  },
  {
   "property": "C07",
   "status": "proved",
   "theorems": [
    "Pooya.C07.C07_one",
    "Pooya.C07.C07_keeps",
    "Pooya.C07.C07_frame"
   ],
   "note": "a construction names a signal exactly if it has no name; names survive any sequence of constructions."
  },
  {
   "property": "C08",
   "status": "proved",
   "theorems": [
    "Pooya.C08.C08_write_once",
    "Pooya.C08.C08_single_write",
    "Pooya.C08.C08_fresh"
   ],
   "note": "debug builds: every history of calls matches the write-once register automaton."
  },
  {
   "property": "C09",
   "status": "proved",
   "theorems": [
    "Pooya.C09.C09_call",
    "Pooya.C09.C09_program"
   ],
   "note": "Proved by a two-run (twin) argument through every model function: any call or any user program of calls and signal accesses that returns in a debug build returns the same result and state in a release build. Debug-only printing is not modelled."
  },
  {
   "property": "C10",
   "status": "partial",
   "theorems": [
    "Pooya.C10.C10_wrap",
    "Pooya.C10.C10_reset",
    "Pooya.C10.C10_handle_typed",
    "Pooya.C10.C10_deriv",
    "Pooya.C10.C10_partial",
    "Pooya.C10.C10_refuted"
   ],
   "note": "handles, re-targeting and derivative links: proved. connect: false in release builds for Add/Multiply, which accept inputs of any type (witness); proved for all classes in debug builds and for all other classes in release builds."
  },
  {
   "property": "C11",
   "status": "proved",
   "theorems": [
    "Pooya.C11.C11_consistent",
    "Pooya.C11.C11_parent_kept",
    "Pooya.C11.C11_set_parent",
    "Pooya.C11.C11_new"
   ],
   "note": "invariant over all reachable heaps; set_parent's result; parents are permanent."
  },
  {
   "property": "C12",
   "status": "partial",
   "theorems": [
    "Pooya.C12.C12_refuted",
    "Pooya.C12.C12_refuted_full_name",
    "Pooya.C12.C12_step_partial",
    "Pooya.C12.C12_partial",
    "Pooya.C12.C12_full_name_partial",
    "Pooya.C12.C12_tree_partial"
   ],
   "note": "False of the code: set_parent accepts a block as its own ancestor (witness; full_name then never returns). Partial: a call keeps the hierarchy acyclic exactly if it does not put an unowned submodel below itself; acyclic hierarchies unfold to finite trees without repeated blocks."
  },
  {
   "property": "C13",
   "status": "proved",
   "theorems": [
    "Pooya.C13.C13_visit",
    "Pooya.C13.C13_visitL",
    "Pooya.C13.C13_all"
   ],
   "note": "visit equals calling the callback along the pre-order list filtered by level, up to the first false. Levels are natural numbers (no 2^32 wrap-around)."
  },
  {
   "property": "C14",
   "status": "proved",
   "theorems": [
    "Pooya.C14.C14_connect",
    "Pooya.C14.C14_throws",
    "Pooya.C14.C14_once",
    "Pooya.C14.C14_class_links",
    "Pooya.C14.C14_class_throws",
    "Pooya.C14.C14_required_bit",
    "Pooya.C14.C14_required_inputs"
   ],
   "note": "Block::connect and connect of every leaf class; link types of Memory and the integrators included."
  },
  {
   "property": "C15",
   "status": "proved",
   "theorems": [
    "Pooya.C15.C15_at_most_once",
    "Pooya.C15.C15_right_time"
   ],
   "note": "every evaluation of every execution, all three strategies (for the fast one: on reachable states); each activation carries the time of its evaluation."
  },
  {
   "property": "C16",
   "status": "proved",
   "theorems": [
    "Pooya.C16.C16_only_when_ready"
   ],
   "note": "Simulator with and without reuse_order."
  },
  {
   "property": "C17",
   "status": "proved",
   "theorems": [
    "Pooya.C17.C17_plain_sweeps",
    "Pooya.C17.C17_reuse_sweeps",
    "Pooya.C17.C17_fast_levels",
    "Pooya.C17.C17_maximal",
    "Pooya.C17.C17_processed"
   ],
   "note": "sweep bounds for the plain, reuse and fast loops; maximality of the final state; processed() tells exactly which leaves ran."
  },
  {
   "property": "C18",
   "status": "proved",
   "theorems": [
    "Pooya.C18.C18_order_and_nesting",
    "Pooya.C18.C18_runs"
   ],
   "note": "C18_order_and_nesting: one evaluation, any permutation of the leaves and any grouping; both fail or both agree on signals, memories and activations. C18_runs: whole simulations (init and any sequence of runs) of well-formed models in debug builds."
  },
  {
   "property": "C19",
   "status": "partial",
   "theorems": [
    "Pooya.C19.C19_order_partial",
    "Pooya.C19.C19_permutation_partial",
    "Pooya.C19.C19_same_results_partial",
    "Pooya.C19.C19_same_runs_partial",
    "Pooya.C19.C19_refuted_nostate",
    "Pooya.C19.C19_refuted_builder"
   ],
   "note": "False of the code for models without state variables (null remembered order) and with BusBlockBuilder (witnesses). Partial, for the other models: the remembered order stays a permutation of the blocks, every evaluation gives equal results, and whole simulations (init and any sequence of runs) agree."
  },
  {
   "property": "C20",
   "status": "partial",
   "theorems": [
    "Pooya.C20_order",
    "Pooya.C20_same_results_partial",
    "Pooya.C20_same_runs_partial",
    "Pooya.C20_refuted_init"
   ],
   "note": "init finds a valid order of all blocks; every later evaluation agrees with Simulator (for all times, inputs and states), and so do whole simulations (init and any sequence of runs) of models whose blocks do not change members in activation functions. False for other models: the ordering pass of init runs activation functions and can trigger a TriggeredIntegrator (witness)."
  },
  {
   "property": "C21",
   "status": "proved",
   "theorems": [
    "Pooya.C21.C21_ranked_run",
    "Pooya.C21.C21_ranked_fast",
    "Pooya.C21.C21_waiting_idle",
    "Pooya.C21.C21_loop_never_runs",
    "Pooya.C21.C21_loop_rejected"
   ],
   "note": "Proved: blocks whose required signals are ranked all run (Simulator) or are all ordered (FastSimulator); blocks in an algebraic loop never run in any reachable history, with all three strategies, and FastSimulator::init does not return for such a model. Ranked blocks need an activation that assigns its outputs, shown for all library blocks except sources and user functions."
  },
  {
   "property": "C22",
   "status": "proved",
   "theorems": [
    "Pooya.C22.C22_no_reassignment",
    "Pooya.C22.C22_before_kept",
    "Pooya.C22.C22_outputs_kept",
    "Pooya.C22.C22_empty_array"
   ],
   "note": "Call level: no call (init once, any number of runs, any history) fails with the re-assignment exception, for plain, reuse_order and FastSimulator; the per-signal conditions are spelled out in Config.SingleDrivers. Values: C22_before_kept (inputs, states and everything else assigned before the activation functions start, any outcome) and C22_outputs_kept (outputs of blocks that ran). C22_empty_array shows why state signals must not be empty arrays: the code assigns them and then calls pre_step."
  },
  {
   "property": "C23",
   "status": "proved",
   "theorems": [
    "Pooya.C23.C23_conjunction"
   ],
   "note": "all trees, every evaluation without reuse_order."
  },
  {
   "property": "C24",
   "status": "proved",
   "theorems": [
    "Pooya.C24.C24_fresh",
    "Pooya.C24.C24_only_states"
   ],
   "note": "Proved in a debug build for any hash order that keeps every signal: an init or run call from any reachable state gives the same outcome whatever the linked signals held before it (result, simulator members and diagram; after an exception the linked signals themselves may differ). Also proved: after the reset before an evaluation exactly the state signals among the linked ones are assigned. In a release build the model reads stale values of unassigned signals, as the code does."
  },
  {
   "property": "C25",
   "status": "proved",
   "theorems": [
    "Pooya.C25.C25_first_run",
    "Pooya.C25.C25_initialized",
    "Pooya.C25.C25_not_initialized",
    "Pooya.C25.C25_time"
   ],
   "note": "first run equals init (all outcomes, any step-size arguments); a simulator counts as initialised exactly after its first call; time is the requested one."
  },
  {
   "property": "C26",
   "status": "partial",
   "theorems": [
    "Pooya.C26.C26_backwards_rejected_partial",
    "Pooya.C26.C26_time",
    "Pooya.C26.C26_history_partial",
    "Pooya.C26.C26_history_exact_partial",
    "Pooya.C26.C26_no_check_without_states"
   ],
   "note": "False of the code for models without state variables (witness: init(5), run(3) returns). Partial: with state variables a backward run throws and changes nothing at all; along any history of runs with a length-preserving stepper the times never decrease; a failing run keeps the time."
  },
  {
   "property": "C27",
   "status": "proved",
   "theorems": [
    "Pooya.C27.C27_tiling",
    "Pooya.C27.C27_within"
   ],
   "note": "Exact arithmetic in any ordered field, any stepper. C27_tiling: the accepted steps logged by a returning run tile [s,t]. C27_within: also for runs that throw, every trial lies in [s,t]. Models with state variables, smallest step positive (the code verifies this in debug builds only)."
  },
  {
   "property": "C28",
   "status": "partial",
   "theorems": [
    "Pooya.C28.C28_min",
    "Pooya.C28.C28_max_partial",
    "Pooya.C28.C28_max_short_partial",
    "Pooya.C28.C28_refuted"
   ],
   "note": "C28_min is the lower limit in full. The upper limit is false of the code for the first trial of a run, which spans the whole interval (C28_refuted: Euler, max 1/2, one accepted step of length 1); C28_max_partial: every other accepted step obeys it; C28_max_short_partial: it holds if t - s <= max."
  },
  {
   "property": "C29",
   "status": "proved",
   "theorems": [
    "Pooya.C29.C29_trials",
    "Pooya.C29.C29_terminates",
    "Pooya.C29.C29_finite",
    "Pooya.C29.C29_single"
   ],
   "note": "Exact arithmetic in an ordered field (Archimedean for C29_finite); for Euler, Rk4 and Rkf45. C29_trials bounds the number of attempted steps, C29_terminates shows that larger bounds of the model loop change nothing, C29_single: Euler and Rk4 take exactly one step. With rounding the loop of the code can fail to end when t1 + min == t1; this is outside the theorem."
  },
  {
   "property": "C30",
   "status": "proved",
   "theorems": [
    "Pooya.C30_roundtrip",
    "Pooya.C30_slots",
    "Pooya.C30_trajectory"
   ],
   "note": "C30_slots: the state signals occupy consecutive slots (1 for a scalar, size for an array). C30_roundtrip: writing a state vector and reading it back returns it. C30_trajectory: whole simulations with two iteration orders of the hash tables agree on all signals, members, times and states (well-formed models, debug builds)."
  },
  {
   "property": "C31",
   "status": "proved",
   "theorems": [
    "Pooya.C31_run",
    "Pooya.C31_again",
    "Pooya.C31_function",
    "Pooya.C31_integrates"
   ],
   "note": "C31_run: for every stepper that keeps the length of the state vector, every accepted step of a returning run(t) applies the stepper's formula (a relation StepProg.By, so any user-written stepper) to the right-hand side defined by the equations of the blocks (Spec/Evolve: Solution, Rhs), ends with signals that solve the equations and with the members the post_step of each block leaves, and the next step starts there.  C31_again: run(t) at the current time.  C31_function: the right-hand side is a function for diagrams without algebraic loop.  C31_integrates: without memory blocks the state is the fold of the step formula over the accepted steps.  Hypotheses: debug build (with C09_call the release build gives the same states whenever the debug build returns), state variables are outputs of integrators, blocks change members only in post_step once past their first one (Leaf.Calm, the quantifier of the property)."
  },
  {
   "property": "C32",
   "status": "partial",
   "theorems": [
    "Pooya.C32_repeat_partial",
    "Pooya.C32_integrator_partial",
    "Pooya.C32_refuted"
   ],
   "note": "False of the code for TriggeredIntegrator: C32_refuted (repeating a step applies the pending reset). C32_repeat_partial gives the state after a repeated step for every integrator, and C32_integrator_partial that for Integrator it is the old state."
  },
  {
   "property": "C33",
   "status": "partial",
   "theorems": [
    "Pooya.C33_trial_partial",
    "Pooya.C33_refuted"
   ],
   "note": "False of the code for TriggeredIntegrator: C33_refuted (Rkf45 rejects a trial, the retry starts from 0 instead of 5). C33_trial_partial: a trial leaves the memory of every block without such side effects unchanged and the retry starts from the same states."
  },
  {
   "property": "C34",
   "status": "partial",
   "theorems": [
    "Pooya.C34_again_partial",
    "Pooya.C34_refuted_states",
    "Pooya.C34_refuted_debug",
    "Pooya.C34_refuted_fast",
    "Pooya.C34_refuted_failed"
   ],
   "note": "False of the code for models with state variables (the state signals are listed twice and the next run writes out of bounds), for reuse_order (debug builds throw) and for FastSimulator (debug builds throw, release builds reject the model, also if the first init threw in a block): witnesses. C34_again_partial: Simulator without reuse_order and models without state variables, after any history."
  },
  {
   "property": "C35",
   "status": "proved",
   "theorems": [
    "Pooya.C35_memory"
   ],
   "note": "C35_memory: over any initialised sequence of runs without state variables (arbitrary user signal changes in between, all strategies, debug and release), the values of a Memory output are the values of its input delayed by one run, starting with the initial value."
  },
  {
   "property": "C36",
   "status": "proved",
   "theorems": [
    "Pooya.C36_initial",
    "Pooya.C36_no_wait",
    "Pooya.C36_hold",
    "Pooya.C36_carry"
   ],
   "note": "C36_initial (value after init), C36_no_wait (output assigned before any input), C36_hold and C36_carry (memory after run is the component of the final state vector)."
  },
  {
   "property": "C37",
   "status": "partial",
   "theorems": [
    "Pooya.C37_retry_partial",
    "Pooya.C37_next_partial",
    "Pooya.C37_refuted"
   ],
   "note": "Debug builds: proved, for every model, stepper and state of the recorder, exactly when the state is reset at the start of a trial step, both after a rejected trial step and after an accepted one. The statement as given is false: the evaluations of the step's stages, the first of which repeats the evaluation at the end of the previous step, set the trigger too (C37_refuted: a trigger set once resets twice)."
  },
  {
   "property": "C38",
   "status": "proved",
   "theorems": [
    "Pooya.C38.C38_empty",
    "Pooya.C38.C38_initial",
    "Pooya.C38.C38_last",
    "Pooya.C38.C38_between_any",
    "Pooya.C38.C38_neighbours",
    "Pooya.C38.C38_between",
    "Pooya.C38.C38_between_array",
    "Pooya.C38.C38_bounded",
    "Pooya.C38.C38_affine",
    "Pooya.C38.C38_no_zero_division",
    "Pooya.C38.C38_record",
    "Pooya.C38.C38_nan_out_of_bounds"
   ],
   "note": "Exact arithmetic for the interpolation theorems (any ordered field), any arithmetic for the branches; the record invariant needs increasing times, which debug builds verify. With an unordered (NaN) time the code reads out of bounds (C38_nan_out_of_bounds)."
  },
  {
   "property": "C39",
   "status": "partial",
   "theorems": [
    "Pooya.C39.C39_partial",
    "Pooya.C39.C39_gap_partial",
    "Pooya.C39.C39_forgotten",
    "Pooya.C39.C39_refuted"
   ],
   "note": "False as stated: with lifespan 1, delay 1 and records at 0, 3/5, 6/5 the block outputs its initial value at 13/10 (C39_refuted). Proved under the condition that a record before the time looked up is not older than the lifespan, or that delay plus sampling gap does not exceed the lifespan; C39_forgotten says what happens otherwise."
  },
  {
   "property": "C40",
   "status": "partial",
   "theorems": [
    "Pooya.C40.C40_initial_partial",
    "Pooya.C40.C40_difference_partial",
    "Pooya.C40.C40_difference_array_partial",
    "Pooya.C40.C40_again",
    "Pooya.C40.C40_affine_partial",
    "Pooya.C40.C40_refuted"
   ],
   "note": "The difference quotient and the initial value are proved for all lives of the block; the last part is false because post_step stores the input in _y (C40_refuted, C40_again)."
  },
  {
   "property": "C41",
   "status": "proved",
   "theorems": [
    "Pooya.C41.C41_const",
    "Pooya.C41.C41_source",
    "Pooya.C41.C41_pipe",
    "Pooya.C41.C41_siso",
    "Pooya.C41.C41_gain",
    "Pooya.C41.C41_gain_int",
    "Pooya.C41.C41_gain_int_overflow",
    "Pooya.C41.C41_gain_array",
    "Pooya.C41.C41_subtract",
    "Pooya.C41.C41_subtract_array",
    "Pooya.C41.C41_divide",
    "Pooya.C41.C41_divide_array",
    "Pooya.C41.C41_add",
    "Pooya.C41.C41_add_array",
    "Pooya.C41.C41_multiply",
    "Pooya.C41.C41_multiply_array",
    "Pooya.C41.C41_add_exact",
    "Pooya.C41.C41_add_array_exact",
    "Pooya.C41.C41_multiply_exact",
    "Pooya.C41.C41_multiply_array_exact",
    "Pooya.C41.C41_order_exact"
   ],
   "note": "all algebraic blocks, scalar, int and array variants: value, success and frame; in exact arithmetic sums and products with multiplicity."
  },
  {
   "property": "C42",
   "status": "proved",
   "theorems": [
    "Pooya.C42.C42_pipe",
    "Pooya.C42.C42_pipe_throws",
    "Pooya.C43.C43_connections"
   ],
   "note": "For every bus shape with labels unique in each bus: connecting a BusPipe succeeds iff exactly one pipe is created per non-excluded value signal, joined to the signal with the same dotted label; it throws iff a label is missing or of another type. An entry 'b.' of the exclusion list excludes the sub-bus b."
  },
  {
   "property": "C43",
   "status": "proved",
   "theorems": [
    "Pooya.C43.C43_memory",
    "Pooya.C43.C43_used_once",
    "Pooya.C43.C43_connections",
    "Pooya.C43.C43_wrong_type"
   ],
   "note": "Exact characterisation of when BusMemory connects and of the initial value of each memory, for all bus shapes with unique labels and all maps."
  },
  {
   "property": "C44",
   "status": "proved",
   "theorems": [
    "Pooya.C44.C44_euler",
    "Pooya.C44.C44_rk4",
    "Pooya.C44.C44_rkf45",
    "Pooya.C44.C44_times",
    "Pooya.C44.C44_dimension",
    "Pooya.C44.C44_order",
    "Pooya.C44.C44_order_sharp"
   ],
   "note": "Exact ordered-field arithmetic for the tableau identities and times; dimension preservation in any arithmetic. Order conditions are Butcher's rooted-tree conditions for all trees, checked completely up to the stated order and shown not to hold one order higher; the analytic convergence theorem behind them is not formalised."
  },
  {
   "property": "C45",
   "status": "proved",
   "theorems": [
    "Pooya.C45.C45_euler",
    "Pooya.C45.C45_rk4",
    "Pooya.C45.C45_rkf45",
    "Pooya.C45.C45_linear",
    "Pooya.C45.C45_exponential"
   ],
   "note": "Exact arithmetic, any dimension, any step; also linear systems x' = A x for all three steppers."
  },
  {
   "property": "C46",
   "status": "proved",
   "theorems": [
    "Pooya.C46.C46_three_sizes",
    "Pooya.C46.C46_criterion",
    "Pooya.C46.C46_no_zero_division"
   ],
   "note": "Exact arithmetic. C46_no_zero_division: the step is the same for every value division by zero might have."
  },
  {
   "property": "C47",
   "status": "proved",
   "theorems": [
    "Pooya.C47.C47_equivariant",
    "Pooya.C47.C47_permuted_step",
    "Pooya.C47.C47_equivariant_rkf45",
    "Pooya.C47.C47_permuted_step_rkf45",
    "Pooya.C47.C47_linear_invariant"
   ],
   "note": "Equivariance of Euler and Rk4 in any arithmetic, of Rkf45 in exact arithmetic, also for effectful right-hand sides; linear invariants in exact arithmetic."
  },
  {
   "property": "C48",
   "status": "proved",
   "theorems": [
    "Pooya.C48.C48_recorded",
    "Pooya.C48.C48_growth",
    "Pooya.C48.C48_nothing_tracked"
   ],
   "note": "For every sequence of updates and shrinks of a recorder, every row of every tracked signal and of time() holds exactly the sample of the most recent update with that index; growth never loses rows."
  },
  {
   "property": "C49",
   "status": "partial",
   "theorems": [
    "Pooya.C49.C49_in_bounds_partial",
    "Pooya.C49.C49_nrows_partial",
    "Pooya.C49.C49_shrink_partial",
    "Pooya.C49.C49_shrink_tables_partial",
    "Pooya.C49.C49_idempotent",
    "Pooya.C49.C49_refuted_growth_zero",
    "Pooya.C49.C49_refuted_early_shrink"
   ],
   "note": "Partial: bounds, nrows and shrink_to_fit are proved for a growth of at least 1 and no shrink before the first update (the tables part); growth 0 (write out of bounds) and an early shrink_to_fit (tables keep too many rows) are refuted by witnesses."
  },
  {
   "property": "C50",
   "status": "partial",
   "theorems": [
    "Pooya.C50.C50_track_partial",
    "Pooya.C50.C50_bus",
    "Pooya.C50.C50_untrack_partial",
    "Pooya.C50.C50_set_partial",
    "Pooya.C50.C50_refuted",
    "Pooya.C50.C50_late_debug",
    "Pooya.C50.C50_late_release"
   ],
   "note": "Partial: track, bus expansion and untrack give exactly the tracked set; untracking a signal that is not tracked is undefined behaviour (witness), tracking after recording started is rejected in debug builds and makes the next update throw in release builds."
  },
  {
   "property": "C51",
   "status": "partial",
   "theorems": [
    "Pooya.C51.C51_rectangular",
    "Pooya.C51.C51_columns",
    "Pooya.C51.C51_complete_partial",
    "Pooya.C51.C51_refuted_uninitialised",
    "Pooya.C51.C51_refuted_out_of_bounds"
   ],
   "note": "Partial: every file is rectangular and has the right columns for every hash order; lines are exactly the recorded rows if all rows were recorded and shrink_to_fit was called just before; otherwise uninitialised lines or out-of-bounds reads (witnesses)."
  },
  {
   "property": "C52",
   "status": "proved",
   "theorems": [
    "Pooya.C52.C52_run",
    "Pooya.C52.C52_throws",
    "Pooya.C52.C52_states",
    "Pooya.C52.C52_init"
   ],
   "note": "All strategies, every reachable initialised machine without state variables. C52_run: the events of a run that returns are the input callback, pre_step of every leaf in order, activations, post_step of every leaf in order. C52_throws: when it throws, the events are a prefix of such a sequence. C52_states extends the claim to models with state variables (one pre_step and one post_step round per accepted sub-step, with evaluations between). C52_init covers init of the plain strategy."
  },
  {
   "property": "C53",
   "status": "partial",
   "theorems": [
    "Pooya.C53_unmoved_partial",
    "Pooya.C53_retry_partial",
    "Pooya.C53_refuted_states",
    "Pooya.C53_refuted_memory"
   ],
   "note": "False of the code: an accepted sub-step before the exception advances integrators but not the time (C53_refuted_states), and an exception in one post_step leaves the blocks before it stepped (C53_refuted_memory). Proved: a failed run never changes the time; before the first post_step it changes no members of blocks that change them only in post_step; and then, for causes outside the blocks (inputs, stepper), the retried run and all later runs have the undisturbed outcome."
  },
  {
   "property": "C54",
   "status": "partial",
   "theorems": [
    "Pooya.C54_simulator_partial",
    "Pooya.C54_refuted_fast"
   ],
   "note": "Simulator (with or without reuse_order): proved for all leftover flags and all sequences of calls. FastSimulator: false, it rejects every model with a marked leaf (proved for all such models)."
  },
  {
   "property": "C55",
   "status": "proved",
   "theorems": [
    "Pooya.C55_evaluation",
    "Pooya.C55_call",
    "Pooya.C55_unique",
    "Pooya.C55_determined"
   ],
   "note": "Debug builds, where a signal cannot be assigned twice or read before it is assigned; release builds behave the same whenever the debug build returns (C09). Equations are relations between signal values stated apart from the activation functions. C55_call is about blocks without members; C55_evaluation covers all blocks, with the members they had when the evaluation began."
  },
  {
   "property": "C56",
   "status": "partial",
   "theorems": [
    "Pooya.C56.C56_no_ub",
    "Pooya.C56.C56_overflow_only",
    "Pooya.C56.C56_sizes_agree",
    "Pooya.C56.C56_values_fit",
    "Pooya.C56.C56_delay_after_failure_refuted",
    "Pooya.C56.C56_nan_delay_refuted",
    "Pooya.C56.C56_nan_time_refuted",
    "Pooya.C56.C56_sizes_refuted"
   ],
   "note": "Proved for the debug build, types as stated in Verif/Spec/Typed.lean, init called once, times that can be compared, and (with Delay) histories of calls that returned and numbers that can be compared. The unrestricted claim is false; the _refuted theorems give the witnesses: a Delay after a failed call (time stored before the input is read), a NaN delay, run(NaN), sums of arrays of different sizes. Signed overflow of an integer gain is the only undefined behaviour left when integer gains are allowed. C56_sizes_agree: if the sizes of arrays agree wherever values are assigned, no call ends with the exception for different sizes either."
  },
  {
   "property": "C57",
   "status": "proved",
   "theorems": [
    "Pooya.C57.C57_init",
    "Pooya.C57.C57_no_failure",
    "Pooya.C57.C57_exact",
    "Pooya.C57.C57_run_bounded",
    "Pooya.C57.C57_run",
    "Pooya.C57.C57_repeated_delay_refuted"
   ],
   "note": "Complete diagrams and the calls meant are stated in Verif/Spec/Total.lean. C57_no_failure holds for arbitrary arithmetic and steppers (with a Delay, of arithmetic with a total order, and with steps that make times larger, or a method that always takes the whole step), up to the bound on the number of attempted steps that the model has and the code has not; C57_run and C57_run_bounded remove the bound for Euler, Rk4 and Rkf45 in exact arithmetic. C57_repeated_delay_refuted shows why models with a Delay need later times: a repeated step prints a warning and then fails the assertion in Delay::post_step."
  },
  {
   "property": "C58",
   "status": "partial",
   "theorems": [
    "Pooya.C58_leaf",
    "Pooya.C58_linked",
    "Pooya.C58_waits",
    "Pooya.C58_states",
    "Pooya.C58_integrated",
    "Pooya.C58_deriv_types",
    "Pooya.C58_typed",
    "Pooya.C58_wellTyped",
    "Pooya.C58_nested_bus_refuted"
   ],
   "note": "Proved for new objects (each connected once) whose user code uses entries of its buses themselves, or signals it got from input and output; in release builds the inputs of Add and Multiply are assumed to have the right types (connect checks them in debug builds only). C58_nested_bus_refuted: a function that looks up a signal in a bus inside its input bus is not linked to it, and is called before the signal is assigned. C58_typed needs equal sizes of the arrays on the buses of one block, which connect does not check."
  },
  {
   "property": "C59",
   "status": "proved",
   "theorems": [
    "Pooya.C59.C59_waits",
    "Pooya.C59.C59_complete",
    "Pooya.C59.C59_simulates"
   ],
   "note": "All hypotheses are about the objects, their buses and the user's functions (Verif/Spec/Sealed.lean), none about the links or the order of processing. User-written leaf classes are not covered here (C57 covers them, with hypotheses on the connected leaf). run is proved to return in exact arithmetic. C59_waits says exactly which signals a connected block of a library class waits for (debug and release builds)."
  },
  {
   "property": "C60",
   "status": "proved",
   "theorems": [
    "Pooya.C60.C60_rhs",
    "Pooya.C60.C60_trajectory"
   ],
   "note": "The differential equation is stated without the simulator (Verif/Spec/Evolve.lean: Solution, Rhs), the iteration of the step formula in Verif/Spec/Trajectory.lean. C60_rhs: the equations of the blocks have exactly one vector of derivatives at every time and state, so f is determined. Exact arithmetic. Blocks with memory (Memory, Delay, Derivative, TriggeredIntegrator) are excluded here: with them the equation changes from step to step (C55)."
  },
  {
   "property": "C61",
   "status": "proved",
   "theorems": [
    "Pooya.C61.C61_converges",
    "Pooya.C61.C61_rate"
   ],
   "note": "Exact arithmetic over the real numbers. The bound is of first order for all methods; the higher order of Rk4 and Rkf45 is the subject of C28/C29 only. Rkf45 is covered for whatever steps it accepts. Finitely many jumps of the right-hand side in time are allowed. The example is x' = x with the solution exp."
  },
  {
   "property": "C62",
   "status": "partial",
   "theorems": [
    "Pooya.C62.C62_safe",
    "Pooya.C62.C62_unrelated",
    "Pooya.C62.C62_results",
    "Pooya.C62.C62_returned",
    "Pooya.C62.C62_partial",
    "Pooya.C62.C62_child_refuted",
    "Pooya.C62.C62_parent_refuted",
    "Pooya.C62.C62_refuted"
   ],
   "note": "Full claim: C62_full, refuted by C62_refuted, C62_child_refuted and C62_parent_refuted (a Submodel whose Gain has been destroyed). C62_safe gives the exact condition for a call to be defined, C62_returned the converse, C62_partial the case in which nothing was destroyed. The identity of a destroyed block is not reused; callbacks are parameters."
  },
  {
   "property": "C63",
   "status": "proved",
   "theorems": [
    "Pooya.C63.C63_restored",
    "Pooya.C63.C63_visit",
    "Pooya.C63.C63_process",
    "Pooya.C63.C63_step",
    "Pooya.C63.C63_message"
   ],
   "note": "C63_restored is about all calls and builds; C63_process, C63_visit, C63_step and C63_message say what the traceback contains. Traced scopes inside the activation functions of leaf classes are part of the parameter `act`."
  },
  {
   "property": "C64",
   "status": "partial",
   "theorems": [
    "Pooya.C64.C64_counts",
    "Pooya.C64.C64_defined",
    "Pooya.C64.C64_alive",
    "Pooya.C64.C64_typed",
    "Pooya.C64.C64_leak",
    "Pooya.C64.C64_partial",
    "Pooya.C64.C64_permanent",
    "Pooya.C64.C64_refuted",
    "Pooya.C64.C64_reset_refuted"
   ],
   "note": "Full claim: C64_full, refuted by C64_refuted (a signal that is its own derivative); C64_partial proves it without cycles of derivatives, C64_leak and C64_permanent describe what happens with them. C64_reset_refuted: a failed SignalT::reset leaves the handle with a null _ptr. Temporaries are left out of the model, as are the places where handles are stored."
  },
  {
   "property": "C65",
   "status": "proved",
   "theorems": [
    "Pooya.C65.C65_mark",
    "Pooya.C65.C65_process",
    "Pooya.C65.C65_evaluate",
    "Pooya.C65.C65_step",
    "Pooya.C65.C65_visit",
    "Pooya.C65.C65_tree"
   ],
   "note": "The tree is `unfold` of the heap. C65_tree: there is one for every hierarchy without cycles (C12). The number of nested calls has to suffice for the depth. Activation functions of leaf classes are those of the tree model, run on the diagram."
  },
  {
   "property": "C66",
   "status": "proved",
   "theorems": [
    "Pooya.C66.C66_converges",
    "Pooya.C66.C66_rate",
    "Pooya.C66.C66_buildable",
    "Pooya.C66.C66_mass_spring",
    "Pooya.C66.C66_pendulum",
    "Pooya.C66.C66_tutorial",
    "Pooya.C66.C66_delay_block",
    "Pooya.C66.C66_delay_equation"
   ],
   "note": "The drawing and its meaning in continuous time are in Verif/Spec/Sketch.lean, without simulator or model helpers; Config.Draws says what the program does: connect calls as in C58. C66_buildable shows that programs for every closed drawing exist. Debug builds, exact arithmetic over the real numbers, scalar signals. The functions of time are assumed to exist (they may explode in finite time); for the samples they are shown to exist. Sources may jump at finitely many times, as in tut01. A Delay: C39 gives what the block recalls from its records, and the records are those of the accepted steps (C69); C66_delay_block and C66_delay_equation are the examples. The simulator that reuses the order of the first step is covered only with an integrator: without state variables Simulator::init leaves its order pointers null (src/solver/simulator.cpp:129)."
  },
  {
   "property": "C67",
   "status": "proved",
   "theorems": [
    "Pooya.C67.C67_converges",
    "Pooya.C67.C67_rate",
    "Pooya.C67.C67_mass_spring",
    "Pooya.C67.C67_tutorial",
    "Pooya.C67.C67_delay_block"
   ],
   "note": "The main program is Session in Verif/Spec/Session.lean (track, loop of run and update, shrink_to_fit). Combines C66, C48 and C51. Debug builds, exact arithmetic over the real numbers, scalar signals; the history's allocations are assumed to succeed."
  },
  {
   "property": "C68",
   "status": "proved",
   "theorems": [
    "Pooya.C68.C68_order",
    "Pooya.C68.C68_drawing",
    "Pooya.C68.C68_recorded",
    "Pooya.C68.C68_mass_spring",
    "Pooya.C68.C68_pendulum"
   ],
   "note": "Smoothness is Sketch.Smooth in Verif/Spec/Smooth.lean. C68_order is the statement for any closed diagram of blocks without memory, C68_drawing for drawings, C68_recorded for the history and the file, C68_mass_spring and C68_pendulum for the samples. Debug builds, exact arithmetic over the real numbers, scalar signals in drawings, no delays, no jumps (a step taken across a jump, as in tut01, has order one, C66_rate)."
  },
  {
   "property": "C69",
   "status": "proved",
   "theorems": [
    "Pooya.C69.C69_passage",
    "Pooya.C69.C69_unique"
   ],
   "note": "Passages are Verif/Spec/Passage.lean, on top of the equations of Verif/Spec/Evolve.lean. C69_passage is existence and correctness (exact arithmetic over an Archimedean ordered field), C69_unique determinism (any arithmetic). Debug builds. TriggeredIntegrator and user-written leaves are excluded: they change members in the middle of a step."
  },
  {
   "property": "C70",
   "status": "proved",
   "theorems": [
    "Pooya.C70.C70_single",
    "Pooya.C70.C70_absorbed",
    "Pooya.C70.C70_rounded",
    "Pooya.C70.C70_binary",
    "Pooya.C70.C70_endless"
   ],
   "note": "Arithmetic with rounding is Verif/Model/Rounded.lean, the assumptions on rounding and times are Verif/Spec/Rounding.lean. C70_single: Euler, Rk4 or no method, any arithmetic. C70_rounded: all methods, any monotone idempotent rounding. C70_binary: the rounding of IEEE 754 with any number of digits (53 for double). C70_absorbed and C70_endless: below the resolution, Rkf45 never returns. Debug builds; overflow, subnormal numbers and contracted operations are not modelled; TriggeredIntegrator is excluded."
  },
  {
   "property": "C71",
   "status": "proved",
   "theorems": [
    "Pooya.C71.C71_rk4",
    "Pooya.C71.C71_euler",
    "Pooya.C71.C71_digits",
    "Pooya.C71.C71_mass_spring"
   ],
   "note": "What it means that an arithmetic and a program err by at most rho is Verif/Spec/Accuracy.lean. C71_rk4, C71_euler: any arithmetic with bounded errors and exact comparisons. C71_digits: any rounding with relative error 2^-p; p0 and B depend on the drawing and are not computed. C71_mass_spring: the sample test04. Rkf45, whose choice of steps depends on rounding, is C70; Delays are excluded. Overflow and not-a-numbers cannot occur under the hypotheses, as values stay below B."
  },
  {
   "property": "C72",
   "status": "proved",
   "theorems": [
    "Pooya.C72.C72_observed",
    "Pooya.C72.C72_embedded",
    "Pooya.C72.C72_rkf45_refuted"
   ],
   "note": "C72_observed: any arithmetic, Euler, Rk4 or no integrators. C72_embedded: all methods in exact arithmetic, passages are Verif/Spec/Passage.lean. C72_rkf45_refuted: the results with Rkf45 do depend on what else is in the model, as its error estimate is the largest one of all integrators. Debug builds; TriggeredIntegrator and user-written leaves are excluded."
  },
  {
   "property": "C73",
   "status": "proved",
   "theorems": [
    "Pooya.C73.C73_readable",
    "Pooya.C73.C73_determined",
    "Pooya.C73.C73_printed",
    "Pooya.C73.C73_leaves",
    "Pooya.C73.C73_submodels",
    "Pooya.C73.C73_silent",
    "Pooya.C73.C73_cause",
    "Pooya.C73.C73_loops"
   ],
   "note": "Names of blocks and signals are parameters (C01 and C02 are about names). Evaluations that throw print nothing, as process_model then leaves."
  },
  {
   "property": "C74",
   "status": "proved",
   "theorems": [
    "Pooya.C74.C74_exchange"
   ],
   "note": "Any arithmetic; Euler, Rk4 or no integrators, debug builds; TriggeredIntegrator and user-written leaves are excluded. The exchanged blocks of the first diagram have neither memory nor state; the second diagram may contain anything else. The premise (Follows) is about equations only (Verif/Spec/Equations.lean), for all times, members and values."
  },
  {
   "property": "C75",
   "status": "proved",
   "theorems": [
    "Pooya.C75.C75_linear",
    "Pooya.C75.C75_superposition",
    "Pooya.C75.C75_rest",
    "Pooya.C75.C75_rkf45_refuted"
   ],
   "note": "Exact arithmetic in an ordered archimedean field; Euler, Rk4 or no integrators, debug builds; TriggeredIntegrator and user-written leaves are excluded. C75_rkf45_refuted: false of Rkf45, as the statement says."
  },
  {
   "property": "C76",
   "status": "proved",
   "theorems": [
    "Pooya.C76.C76_run",
    "Pooya.C76.C76_paces",
    "Pooya.C76.C76_linear",
    "Pooya.C76.C76_same",
    "Pooya.C76.C76_mirror"
   ],
   "note": "C76_run: any arithmetic, debug builds. C76_paces, C76_linear, C76_same, C76_mirror: exact arithmetic in an ordered archimedean field, all three methods; TriggeredIntegrator and user-written leaves are excluded."
  },
  {
   "property": "C77",
   "status": "proved",
   "theorems": [
    "Pooya.C77.C77_lumped",
    "Pooya.C77.C77_balance"
   ],
   "note": "Exact arithmetic in an ordered archimedean field, all three methods, debug builds; TriggeredIntegrator and user-written leaves are excluded."
  },
  {
   "property": "C78",
   "status": "proved",
   "theorems": [
    "Pooya.C78.C78_unique",
    "Pooya.C78.C78_paces",
    "Pooya.C78.C78_same",
    "Pooya.C78.C78_binary"
   ],
   "note": "C78_unique: any arithmetic. C78_paces, C78_same: arithmetic with rounding, without overflow, infinities and not-a-numbers (with a NaN among the error estimates their maximum may depend on their order); C78_binary: any number of binary digits. Debug builds; TriggeredIntegrator and user-written leaves are excluded."
  },
  {
   "property": "C79",
   "status": "proved",
   "theorems": [
    "Pooya.C79.C79_run",
    "Pooya.C79.C79_runs",
    "Pooya.C79.C79_unique",
    "Pooya.C79.C79_untriggered",
    "Pooya.C79.C79_init",
    "Pooya.C79.C79_same",
    "Pooya.C79.C79_sealed"
   ],
   "note": "C79_run, C79_runs, C79_init, C79_unique, C79_untriggered, C79_same: any arithmetic. C79_sealed: exact arithmetic. With FastSimulator the course is described from the members after init, because its ordering pass in init may note a trigger (C20); C79_init excludes it. That resets happen one step late, and at stages, is the finding of C37. Debug builds; user-written leaves that change members in pre_step or in the activation are excluded."
  },
  {
   "property": "C80",
   "status": "proved",
   "theorems": [
    "Pooya.C80.C80_coefficients",
    "Pooya.C80.C80_symmetry",
    "Pooya.C80.C80_rkf45_refuted"
   ],
   "note": "C80_coefficients: any arithmetic, Euler and Rk4; with Delay blocks the comparison has to be a linear order. C80_symmetry: exact arithmetic, all methods. C80_rkf45_refuted: the first claim is false of Rkf45, as the property says."
  },
  {
   "property": "C81",
   "status": "proved",
   "theorems": [
    "Pooya.C81_accepts",
    "Pooya.C81_throws",
    "Pooya.C81_diagram",
    "Pooya.C81_builds"
   ],
   "note": "C81_accepts and C81_throws: one object; C81_diagram: several objects; C81_builds: debug and release builds. Looking up the signals a user function names happens when it is called in the code and at connect in the model (DESIGN section 5). Release builds do not check the inputs of Add and Multiply; what happens then is not part of this claim."
  },
  {
   "property": "C82",
   "status": "partial",
   "theorems": [
    "Pooya.C82.C82_partial",
    "Pooya.C82.C82_double_partial",
    "Pooya.C82.C82_nan_accepted",
    "Pooya.C82.C82_rkf45_refuted",
    "Pooya.C82.C82_delay_refuted"
   ],
   "note": "C82_partial: diagrams without Delay, any arithmetic that hosts rounded numbers; C82_double_partial: double. The rest is false of the code: with a Delay whose delay is not a number, run reads beyond the end of a vector (C82_delay_refuted, all other hypotheses hold); Rkf45 takes an error estimate that is not a number for zero, so it accepts the step (C82_nan_accepted, C82_rkf45_refuted: a step of 4 is accepted with smallest step 1/1024, and the state is not a number from then on). Zeros with a sign are one number in the model."
  },
  {
   "property": "C83",
   "status": "partial",
   "theorems": [
    "Pooya.C83.C83_number",
    "Pooya.C83.C83_order",
    "Pooya.C83.C83_partial",
    "Pooya.C83.C83_refuted"
   ],
   "note": "C83_partial: the file splits into the headings and one field per number, read as the recorded numbers to six digits; C83_number, C83_order: single numbers. The rest (reading gives the recorded numbers themselves) is false of the code: no precision is set, so the times 100000.25 and 100000.5 are both written as 100000 (C83_refuted)."
  },
  {
   "property": "C84",
   "status": "partial",
   "theorems": [
    "Pooya.C84.C84_single",
    "Pooya.C84.C84_rounded",
    "Pooya.C84.C84_hosts_partial",
    "Pooya.C84.C84_binary",
    "Pooya.C84.C84_double_partial"
   ],
   "note": "C84_rounded, C84_binary: rounding, all blocks; C84_single: Euler and Rk4 in any arithmetic; C84_hosts_partial, C84_double_partial: with overflow, infinities and not-a-numbers, without Delay blocks. The rest (a Delay whose delay is not a number) is false of the code: C82_delay_refuted."
  },
  {
   "property": "C85",
   "status": "proved",
   "theorems": [
    "Pooya.C85.C85_input",
    "Pooya.C85.C85_source",
    "Pooya.C85.C85_function",
    "Pooya.C85.C85_memory",
    "Pooya.C85.C85_derivative",
    "Pooya.C85.C85_delay",
    "Pooya.C85.C85_memory_near",
    "Pooya.C85.C85_derivative_near",
    "Pooya.C85.C85_delay_near"
   ],
   "note": "Exact arithmetic. C85_memory, C85_derivative, C85_delay: what is shown; C85_*_near: error bounds for real functions; C85_input, C85_source, C85_function: which signals are functions of time."
  },
  {
   "property": "C86",
   "status": "proved",
   "theorems": [
    "Pooya.C86.C86_add",
    "Pooya.C86.C86_sub",
    "Pooya.C86.C86_mul",
    "Pooya.C86.C86_div",
    "Pooya.C86.C86_abs",
    "Pooya.C86.C86_lit",
    "Pooya.C86.C86_lt",
    "Pooya.C86.C86_eq",
    "Pooya.C86.C86_le",
    "Pooya.C86.C86_limit",
    "Pooya.C86.C86_gain_block",
    "Pooya.C86.C86_subtract_block",
    "Pooya.C86.C86_divide_block"
   ],
   "note": "C86_add, _sub, _mul, _div, _abs, _lit, _lt, _le, _eq: the operations; C86_limit: limits are unique; C86_*_block: the blocks. Added because a mutant of Ext.lt (infinity less than itself) survived."
  },
  {
   "property": "C87",
   "status": "proved",
   "theorems": [
    "Pooya.C87.C87_sums",
    "Pooya.C87.C87_timed",
    "Pooya.C87.C87_cubic",
    "Pooya.C87.C87_derivative",
    "Pooya.C87.C87_constant_refuted",
    "Pooya.C87.C87_euler_near",
    "Pooya.C87.C87_rk4_near"
   ],
   "note": "C87_sums: the general case; C87_timed: functions of time; C87_cubic, C87_euler_near, C87_rk4_near: consequences; C87_derivative and C87_constant_refuted: what happens behind a Derivative, refuting that an Integrator gives back the signal."
  },
  {
   "property": "C88",
   "status": "proved",
   "theorems": [
    "Pooya.C88.C88_states",
    "Pooya.C88.C88_gain",
    "Pooya.C88.C88_decay",
    "Pooya.C88.C88_oscillator",
    "Pooya.C88.C88_energy",
    "Pooya.C88.C88_exponential"
   ],
   "note": "C88_states: any states whose derivatives depend only on them; C88_decay, C88_oscillator: the products of factors; C88_exponential, C88_energy: what they amount to; C88_gain: a Gain block makes signals proportional."
  },
  {
   "property": "C89",
   "status": "proved",
   "theorems": [
    "Pooya.C89.C89_value",
    "Pooya.C89.C89_told",
    "Pooya.C89.C89_file"
   ],
   "note": "C89_value: one field; C89_file: the file; C89_told: values of different kinds are not confused. The signs of zeros and not-a-numbers, which the model of doubles does not keep, are left open (Writes is a relation)."
  },
  {
   "property": "C90",
   "status": "proved",
   "theorems": [
    "Pooya.C90.C90_machine",
    "Pooya.C90.C90_chain",
    "Pooya.C90.C90_sum",
    "Pooya.C90.C90_filter"
   ],
   "note": "C90_machine: any network of Memory blocks; C90_chain: shift registers; C90_sum: accumulators; C90_filter: weighted means. Not for Rkf45, which may end steps at times in between, at each of which the machine goes on."
  },
  {
   "property": "C91",
   "status": "proved",
   "theorems": [
    "Pooya.C91.C91_settles",
    "Pooya.C91.C91_forgets",
    "Pooya.C91.C91_calm",
    "Pooya.C91.C91_tutorial"
   ],
   "note": "C91_settles and C91_calm: while the force is constant; C91_forgets: any force, two simulations; C91_tutorial: samples/tut01 in exact arithmetic. Rkf45 only from the beginning of a simulation with a constant force, since its steps depend on the values."
  },
  {
   "property": "C92",
   "status": "proved",
   "theorems": [
    "Pooya.C92.C92_rest",
    "Pooya.C92.C92_rounded",
    "Pooya.C92.C92_double",
    "Pooya.C92.C92_drawing",
    "Pooya.C92.C92_pendulum",
    "Pooya.C92.C92_steered"
   ],
   "note": "C92_rest: any closed diagram of provided blocks without triggered Integrators; C92_rounded: the same bit by bit in arithmetic with rounding, without Delay; C92_double: an example with double; C92_drawing: drawings; C92_pendulum, C92_steered: two samples. A Derivative of a constant other than 0 together with Integrators moves (C87_constant_refuted), so it is excluded."
  },
  {
   "property": "C93",
   "status": "proved",
   "theorems": [
    "Pooya.C93.C93_region",
    "Pooya.C93.C93_bounds",
    "Pooya.C93.C93_spread",
    "Pooya.C93.C93_gap"
   ],
   "note": "C93_region: convex sets, any closed diagram of provided blocks without triggered Integrators, Euler; C93_bounds: bounds; C93_spread, C93_gap: an example, and that it fails with a large gap. Rk4 and Rkf45 are not claimed."
  },
  {
   "property": "C94",
   "status": "proved",
   "theorems": [
    "Pooya.C94.C94_near",
    "Pooya.C94.C94_closing",
    "Pooya.C94.C94_exp",
    "Pooya.C94.C94_sharp"
   ],
   "note": "C94_near: Euler and Rk4, any closed diagram of provided blocks without triggered Integrators; C94_exp: the bound with the exponential function; C94_closing: Euler with gaps that do not move states apart; C94_sharp: the bound is reached. Rkf45 is not claimed: it chooses different steps for the two simulations."
  },
  {
   "property": "C95",
   "status": "proved",
   "theorems": [
    "Pooya.C95.C95_near",
    "Pooya.C95.C95_within",
    "Pooya.C95.C95_under",
    "Pooya.C95.C95_exp"
   ],
   "note": "C95_near, C95_exp: Euler and Rk4; C95_within: Euler, with the hypothesis about the derivatives only in a set the second diagram cannot leave; C95_under: order with Euler. Rkf45 is not claimed: it chooses different steps for the two simulations."
  },
  {
   "property": "C96",
   "status": "proved",
   "theorems": [
    "Pooya.C96.C96_region",
    "Pooya.C96.C96_positive",
    "Pooya.C96.C96_sinks",
    "Pooya.C96.C96_double",
    "Pooya.C96.C96_decay",
    "Pooya.C96.C96_gap"
   ],
   "note": "C96_region, C96_positive, C96_sinks: all monotone roundings; C96_double, C96_decay: examples with 53 binary digits; C96_gap: larger gaps may lead to negative values. Overflow and underflow are not modelled in this arithmetic."
  },
  {
   "property": "C97",
   "status": "proved",
   "theorems": [
    "Pooya.C97.C97_drawings",
    "Pooya.C97.C97_pendulum"
   ],
   "note": "C97_drawings: all pairs of drawings without Delays; C97_pendulum: the pendulum of samples/test06_pendulum_with_torque.cpp with other initial values and another torque. Rkf45 is not claimed: it chooses different steps for the two programs."
  },
  {
   "property": "C98",
   "status": "proved",
   "theorems": [
    "Pooya.C98.C98_forever",
    "Pooya.C98.C98_swing"
   ],
   "note": "C98_forever: all diagrams, methods and numbers of rounds; C98_swing: x' = -2 x with Euler and steps of length 1, for every n. Exact arithmetic: with rounding the times c later are not exactly c later."
  },
  {
   "property": "C99",
   "status": "proved",
   "theorems": [
    "Pooya.C99.C99_fades",
    "Pooya.C99.C99_forgets",
    "Pooya.C99.C99_decay",
    "Pooya.C99.C99_steps"
   ],
   "note": "C99_fades, C99_forgets: all pairs of diagrams and all sequences of times, Euler, exact arithmetic; C99_decay: all hypotheses hold for x' = - x with gaps of at most 1 (there e = 0); C99_steps: false with larger gaps."
  },
  {
   "property": "C100",
   "status": "proved",
   "theorems": [
    "Pooya.C100.C100_follows",
    "Pooya.C100.C100_drawing",
    "Pooya.C100.C100_lag"
   ],
   "note": "C100_follows: all diagrams, Euler, exact arithmetic; C100_drawing: drawings over the reals; C100_lag: all hypotheses hold for x' = k (u - x), every k > 0 and every u with bounded speed."
  },
  {
   "property": "C101",
   "status": "proved",
   "theorems": [
    "Pooya.C101.C101_units",
    "Pooya.C101.C101_decay",
    "Pooya.C101.C101_rkf45_refuted",
    "Pooya.C101.C101_drawings",
    "Pooya.C101.C101_degrees"
   ],
   "note": "C101_units: all pairs of diagrams, Euler and Rk4, exact arithmetic; C101_decay: all hypotheses hold for x' = g x in any units; C101_drawings: drawings over the reals; C101_degrees: the pendulum of a sample in degrees and another unit of time; C101_rkf45_refuted: false of Rkf45, as the statement says."
  }
 ]
}