{"id": "C01", "title": "Names are always sanitised", "statement": "Naming or renaming any object with any string yields a name of the same length made only of [A-Za-z0-9_]; characters already legal are kept at their position, all others become '_'; a legal name is stored unchanged, so renaming with an object's own name is a no-op. Joining a name with a string by | or / appends '.' or '/' and the sanitised string; joining two names keeps both.", "quantifier": "all byte strings", "why_tests_cant": "Tests sample a few strings; the claim ranges over every byte string, including non-ASCII bytes.", "anchors": ["src/shared/named_object.cpp: ValidName::emend", "src/shared/named_object.hpp: ValidName, NamedObject::rename"]}
{"id": "C02", "title": "Full names identify the path", "statement": "full_name() of a block is '/' + name for every block on the path from the root to the block, in that order; two blocks have equal full names exactly when the sequences of names on their root paths are equal.", "quantifier": "all block hierarchies and all names", "why_tests_cant": "Injectivity is a statement about all pairs of paths of any depth.", "anchors": ["src/block/block.cpp: Block::full_name", "src/shared/named_object.hpp: operator/"]}
{"id": "C03", "title": "Bus lookup follows the dotted path", "statement": "bus.at(\"l1.l2...ln\") returns the signal reached by taking, at every level, the first member with that label; it throws (and never does anything else) when some component is missing or when a non-final component is not a bus.", "quantifier": "all buses of any nesting depth, all label strings (with or without dots, empty components included)", "why_tests_cant": "Recursion over arbitrarily deep nesting and arbitrary strings.", "anchors": ["src/signal/bus.hpp: BusImpl::at(string_view)"]}
{"id": "C04", "title": "Automatic labels agree with positions", "statement": "In a bus built from an unlabelled list the i-th signal has the label \"sig<i>\", all labels are different, and at(\"sig<i>\") returns the same signal as at(i).", "quantifier": "all unlabelled buses of any size", "why_tests_cant": "Needs injectivity of decimal printing for every index.", "anchors": ["src/signal/bus.hpp: BusImpl::BusImpl, _make_auto_label, at"]}
{"id": "C05", "title": "try_at is a non-throwing at", "statement": "try_at(label) never throws and never misbehaves: it returns the signal at(label) would return, and nullopt exactly when at(label) would throw.", "quantifier": "all buses and labels", "why_tests_cant": "Quantifies over every label; the failing inputs are precisely those a happy-path test does not use.", "anchors": ["src/signal/bus.hpp: BusImpl::try_at"]}
{"id": "C06", "title": "Bus positions are insertion order", "statement": "size() is the number of signals the bus was built from and at(i) is the i-th of them for i < size(); at(i) throws for every other i; operator[](i) is the same signal, and outside the bus throws in debug builds and is undefined in release builds. Labels passed by the user are stored sanitised, so no stored label contains a dot and every member whose label is unique in its bus is reachable through at(label).", "quantifier": "all initialiser lists, all indices", "why_tests_cant": "All sizes and all indices.", "anchors": ["src/signal/bus.hpp: BusImpl::BusImpl, size, at, operator[]"]}
{"id": "C07", "title": "A bus names unnamed signals once", "statement": "Putting a signal in a bus gives it the bus label as its name if and only if its name was empty; a signal that has a name keeps it through any number of later bus constructions.", "quantifier": "all sequences of bus constructions", "why_tests_cant": "History property over arbitrary sequences of constructions.", "anchors": ["src/signal/bus.hpp: BusImpl::BusImpl"]}
{"id": "C08", "title": "A value signal is a write-once register per evaluation", "statement": "In a debug build, under any sequence of set_value/get_value/clear/assigned calls on a signal: a read returns the value of the single write since the last clear; reading with no such write throws and changes nothing; a second write without a clear throws and keeps the first value; assigned() tells exactly whether such a write exists.", "quantifier": "all operation histories on a signal of any type", "why_tests_cant": "Arbitrary histories, not a fixed script.", "anchors": ["src/signal/scalar_signal.hpp", "src/signal/int_signal.hpp", "src/signal/bool_signal.hpp", "src/signal/array_signal.hpp", "src/signal/value_signal.hpp"]}
{"id": "C09", "title": "Release builds compute what debug builds compute", "statement": "Whenever a debug build executes a simulation without raising an exception, the release (NDEBUG) build of the same program produces the same signal values, the same block states, the same sequence of block executions and the same simulation time.", "quantifier": "all models, inputs, steppers and sequences of init/run calls", "why_tests_cant": "Both builds cannot be compared on every model; the checks are macros that vanish.", "anchors": ["src/helper/verify.hpp", "src/helper/defs.hpp", "all users of pooya_debug_verify"]}
{"id": "C10", "title": "Typed access rejects wrong signals", "statement": "Wrapping or re-targeting a typed signal handle to a signal succeeds exactly when the signal has that type (otherwise an exception), so a connected block never reads or writes a signal through a wrong type; linking a derivative signal succeeds exactly when type and size agree.", "quantifier": "all signals, all types and array sizes", "why_tests_cant": "All combinations of types and sizes.", "anchors": ["src/signal/signal.hpp: fail_if_invalid_signal_type, SignalT", "src/signal/float_signal.hpp: set_deriv_signal"]}
{"id": "C11", "title": "Parent and child lists stay consistent", "statement": "After any sequence of block constructions, set_parent, link_block and add_block calls, a block is in a submodel's child list exactly when that submodel is its parent, it is there once, and a block that has a parent never changes it.", "quantifier": "all sequences of construction calls (including failing ones)", "why_tests_cant": "Arbitrary operation histories.", "anchors": ["src/block/block.cpp: Block::Block, set_parent", "src/block/submodel.cpp: link_block, add_block"]}
{"id": "C12", "title": "The block hierarchy is a tree", "statement": "No sequence of construction calls can make a block its own ancestor, so full_name, visit and process terminate.", "quantifier": "all sequences of construction calls", "why_tests_cant": "Termination over all constructible hierarchies.", "anchors": ["src/block/block.cpp: set_parent, full_name", "src/block/submodel.cpp: visit, process"]}
{"id": "C13", "title": "visit is a pre-order traversal with level cut-off", "statement": "visit(cb, level, max_level) calls cb on a block before its children, children in insertion order, each block whose depth does not exceed max_level exactly once with its own level, and stops right after the first call that returns false, returning false; it returns true otherwise.", "quantifier": "all hierarchies, all callbacks, all level limits", "why_tests_cant": "All tree shapes and callback behaviours.", "anchors": ["src/block/block.hpp: Block::visit", "src/block/submodel.cpp: Submodel::visit, const_visit"]}
{"id": "C14", "title": "connect links every port once", "statement": "connect() accepts a block only once and only with the required numbers of ports, otherwise it throws and leaves the block unconnected; on success linked_signals() holds every top-level value signal of the two buses exactly once, in order of first appearance, marked as input and required if it is on the input bus and as output if it is on the output bus (both if on both), and nothing else.", "quantifier": "all buses and port limits", "why_tests_cant": "All bus contents, including repeated signals and nested buses.", "anchors": ["src/block/block.cpp: Block::connect, link_signal, find_linked_signal"]}
{"id": "C15", "title": "A block executes at most once per evaluation", "statement": "During one evaluation of the model every leaf block's activation function runs at most once, whichever simulator strategy is used.", "quantifier": "all models, all initial signal states", "why_tests_cant": "All hierarchies and orders.", "anchors": ["src/block/leaf.cpp: Leaf::process", "src/block/submodel.cpp: Submodel::process", "src/solver/simulator.cpp: process_model"]}
{"id": "C16", "title": "A block executes only when its required signals are assigned", "statement": "With Simulator, whenever an activation function runs, every signal the block is linked to as required has been assigned in this evaluation.", "quantifier": "all models and evaluations", "why_tests_cant": "Holds at every execution point of every schedule.", "anchors": ["src/block/leaf.cpp: ready_to_process, process"]}
{"id": "C17", "title": "Model evaluation terminates and is maximal", "statement": "The evaluation loop of Simulator stops after at most (number of leaves + 1) sweeps; when it stops, every block that did not run has a required signal that is still unassigned.", "quantifier": "all models", "why_tests_cant": "Termination and maximality for every size.", "anchors": ["src/solver/simulator.cpp: process_model", "src/block/submodel.cpp: process"]}
{"id": "C18", "title": "Evaluation results do not depend on block order or nesting", "statement": "Two models made of the same leaf blocks, added in any order and grouped into submodels in any way, give after evaluation from the same signals either both an exception or exactly the same signal values, block states and set of executed blocks, provided every signal has a single driver and blocks read only signals they are linked to as required.", "quantifier": "all permutations and nestings of the leaves, all models", "why_tests_cant": "Factorially many orders, unboundedly many nestings.", "anchors": ["src/block/submodel.cpp: process", "src/solver/simulator.cpp: process_model"]}
{"id": "C19", "title": "reuse_order does not change results", "statement": "A Simulator with reuse_order=true gives at every evaluation the same signal values and block states as one with reuse_order=false, and never loses, duplicates or invents a block in its remembered order.", "quantifier": "all models, all histories of evaluations", "why_tests_cant": "Depends on the order remembered from all earlier evaluations.", "anchors": ["src/solver/simulator.cpp: process_model, init"]}
{"id": "C20", "title": "FastSimulator is equivalent to Simulator", "statement": "If FastSimulator::init accepts a model whose blocks always assign all their outputs, then every evaluation gives the same signal values and block states as Simulator.", "quantifier": "all such models, all times, inputs and states", "why_tests_cant": "The order is fixed at t0 and must be valid at every later time.", "anchors": ["src/solver/fast_simulator.cpp: init, process_model"]}
{"id": "C21", "title": "Exactly the computable blocks run", "statement": "If the blocks can be ranked so that every required signal is either set before the evaluation or driven by a block of lower rank, all blocks run; conversely blocks in an algebraic loop (each needing a signal driven only inside the loop) never run.", "quantifier": "all models, all loops of any length", "why_tests_cant": "All graph shapes.", "anchors": ["src/block/leaf.cpp", "src/block/submodel.cpp: process"]}
{"id": "C22", "title": "Single drivers imply no re-assignment", "statement": "If every signal has at most one driver (an input, a state, or one block output) and no state signal is an empty array then no call of a simulator raises the re-assignment exception and every signal keeps the value its driver gave it until the end of the evaluation.", "quantifier": "all models, all histories of calls (returning or throwing) with user assignments in between, all three evaluation strategies", "why_tests_cant": "All schedules.", "anchors": ["src/signal/*_signal.hpp: set_value", "src/solver/simulator.cpp"]}
{"id": "C23", "title": "processed() of a submodel is the conjunction of its blocks", "statement": "After an evaluation with Simulator (no reuse_order) a submodel reports processed() exactly when all leaf blocks in it, at any depth, report processed().", "quantifier": "all hierarchies", "why_tests_cant": "All nesting depths.", "anchors": ["src/block/submodel.cpp: Submodel::process"]}
{"id": "C24", "title": "Fresh start of every evaluation", "statement": "At the beginning of each evaluation every signal linked to a block of the model is unassigned until inputs, states and blocks assign it, so in a debug build the outcome of an evaluation depends only on time, inputs, states and block memories and not on values left from earlier evaluations.", "quantifier": "all models and histories", "why_tests_cant": "All histories of earlier evaluations.", "anchors": ["src/solver/simulator_base.cpp: reset_with_state_variables, init, run"]}
{"id": "C25", "title": "The first run is the initialisation", "statement": "If init was not called, the first run(t) has exactly the effect of init(t); step-size arguments are ignored.", "quantifier": "all models and times", "why_tests_cant": "Equality of complete effects for every model.", "anchors": ["src/solver/simulator_base.cpp: run"]}
{"id": "C26", "title": "Simulated time never goes backwards", "statement": "run(t) with t smaller than the previous time throws and leaves signals, block states and time unchanged.", "quantifier": "all models, all histories of run calls", "why_tests_cant": "All histories.", "anchors": ["src/solver/simulator_base.cpp: run"]}
{"id": "C27", "title": "Solver steps tile the requested interval", "statement": "run(t) from time s < t evaluates accepted steps whose end points increase strictly from s and end exactly at t, with no attempted step leaving [s, t], whatever step sizes the stepper proposes.", "quantifier": "all models with state variables, all steppers, all limits with 0 < min (exact arithmetic)", "why_tests_cant": "The stepper may propose any sequence of step sizes.", "anchors": ["src/solver/simulator_base.cpp: run"]}
{"id": "C28", "title": "Step-size limits are respected", "statement": "Every accepted step of run(t, min, max) is at most max long, and at least min long unless it ends at t.", "quantifier": "all models, steppers, limits with 0 < min < max", "why_tests_cant": "All step-size sequences.", "anchors": ["src/solver/simulator_base.cpp: run"]}
{"id": "C29", "title": "run terminates", "statement": "run(t, min, max) with 0 < min < max performs finitely many steps for each provided stepper and every model.", "quantifier": "all models, intervals and limits with 0 < min (exact arithmetic)", "why_tests_cant": "Termination of an adaptive loop.", "anchors": ["src/solver/simulator_base.cpp: run", "src/solver/rkf45.cpp"]}
{"id": "C30", "title": "State packing is lossless and order-independent", "statement": "Writing a state vector to the state signals and reading it back returns the same vector; state variables never overlap, each scalar occupies one slot and each array its size; the trajectory of every signal does not depend on the (hash-table) order in which state signals are enumerated.", "quantifier": "all sets of scalar and array states, all enumeration orders", "why_tests_cant": "Hash order varies between runs and platforms.", "anchors": ["src/solver/simulator_base.cpp: init, reset_with_state_variables, get_state_variables, run"]}
{"id": "C31", "title": "run integrates the block diagram", "statement": "After run(t) with a stepper, the state signals hold the result of applying that stepper's step formula, over the accepted steps, to the function that maps (time, state) to the derivative signals computed by the diagram.", "quantifier": "all models whose blocks change memory only at step ends, all steppers", "why_tests_cant": "All diagrams and states.", "anchors": ["src/solver/simulator_base.cpp: run", "src/block/integrator_base.hpp"]}
{"id": "C32", "title": "Repeating a step keeps the states", "statement": "run(t) with t equal to the previous time leaves every integrator's state unchanged and does not advance time.", "quantifier": "all models and histories", "why_tests_cant": "All reachable states.", "anchors": ["src/solver/simulator_base.cpp: run", "src/block/integrator_base.hpp"]}
{"id": "C33", "title": "Rejected trial steps leave no trace", "statement": "When the stepper rejects a trial step, block states and the state used for the retry are the same as before the trial.", "quantifier": "all models and trial steps", "why_tests_cant": "Depends on which trial steps an adaptive method rejects.", "anchors": ["src/solver/simulator_base.cpp: run", "src/block/extra/triggered_integrator.hpp"]}
{"id": "C34", "title": "A simulator can be initialised again", "statement": "Calling init a second time restarts the bookkeeping as the first call did.", "quantifier": "all models", "why_tests_cant": "History property.", "anchors": ["src/solver/simulator_base.cpp: init", "src/solver/simulator.cpp: init", "src/solver/fast_simulator.cpp: init"]}
{"id": "C35", "title": "Memory is a one-step delay", "statement": "In any simulation without state variables, Memory's output at the k-th evaluated time is its initial value for k=0 and its input's value at the (k-1)-th evaluated time for k>0.", "quantifier": "all input sequences of any length", "why_tests_cant": "All lengths and inputs.", "anchors": ["src/block/extra/memory.hpp"]}
{"id": "C36", "title": "Integrator starts at its initial value and holds its state", "statement": "An Integrator outputs its initial condition at initialisation, does not wait for its input in order to output, and between steps carries exactly the last accepted state.", "quantifier": "all integrators, initial values and histories", "why_tests_cant": "All histories.", "anchors": ["src/block/integrator_base.hpp", "src/block/integrator.hpp"]}
{"id": "C37", "title": "TriggeredIntegrator resets on trigger", "statement": "The state is reset to zero at the start of the step following an accepted evaluation in which the trigger was true and is otherwise left as integrated.", "quantifier": "all trigger histories", "why_tests_cant": "All trigger patterns, including those seen only inside solver stages.", "anchors": ["src/block/extra/triggered_integrator.hpp"]}
{"id": "C38", "title": "Delay interpolates its recorded input", "statement": "Delay's output at time t is the initial value when t-delay is not after the first recorded time, the last recorded value when t-delay is not before the last recorded time, and otherwise the linear interpolation between the two neighbouring records; the index search never leaves the record, the interpolation never divides by zero, the result lies between the two neighbours, and for an affine input it is exactly the input at t-delay.", "quantifier": "all strictly increasing record times, all values, delays and times", "why_tests_cant": "All sampling patterns.", "anchors": ["src/block/extra/delay.hpp"]}
{"id": "C39", "title": "Forgetting old records never changes Delay's output", "statement": "As long as the delay does not exceed the lifespan, the output is the one that would be obtained with the complete history of records.", "quantifier": "all sampling patterns, delays and lifespans", "why_tests_cant": "The failing patterns depend on sampling gaps around the lifespan boundary.", "anchors": ["src/block/extra/delay.hpp: post_step, activation_function"]}
{"id": "C40", "title": "Derivative is the backward difference", "statement": "At a new time Derivative outputs (x(t)-x(t'))/(t-t') with t' the time of the last completed step; before the first completed step it outputs its initial value; evaluated again at t' it outputs the derivative reported at t'.", "quantifier": "all inputs and time sequences", "why_tests_cant": "All histories.", "anchors": ["src/block/extra/derivative.hpp"]}
{"id": "C41", "title": "Algebraic blocks compute their formulas", "statement": "Add/Multiply output the initial value combined with every entry of the input bus (counting repeated signals as often as they appear), Subtract x1-x2, Divide x1/x2, Gain k*x, Pipe x, Const its value, Source f(t); arrays are combined element-wise.", "quantifier": "all inputs, any number of ports, all array sizes", "why_tests_cant": "All numbers of inputs and sizes.", "anchors": ["src/block/extra/add.hpp", "src/block/extra/multiply.hpp", "src/block/extra/subtract.hpp", "src/block/extra/divide.hpp", "src/block/extra/gain.hpp", "src/block/extra/pipe.hpp", "src/block/extra/const.hpp", "src/block/extra/source.hpp"]}
{"id": "C42", "title": "Bus blocks create one block per value signal", "statement": "BusPipe and BusMemory create exactly one block for every value signal of the input bus, at any depth, whose dotted label is not excluded (an excluded label ending in a dot excludes the whole sub-bus, the empty one everything), connecting it to the output-bus signal with the same dotted label, provided labels are unique in each bus; they throw if the output bus lacks such a label.", "quantifier": "all bus shapes and exclusion lists", "why_tests_cant": "All nesting depths.", "anchors": ["src/block/extra/bus_block_builder.cpp", "src/block/extra/bus_pipe.cpp", "src/block/extra/bus_memory.cpp"]}
{"id": "C43", "title": "BusMemory uses each initial value exactly once", "statement": "Each memory gets the initial value given for its dotted label, or zero of its type if none was given; a value of the wrong type or, in debug builds, a label that matches nothing is rejected.", "quantifier": "all bus shapes and value maps", "why_tests_cant": "All maps.", "anchors": ["src/block/extra/bus_memory.cpp"]}
{"id": "C44", "title": "Steppers implement their Runge-Kutta tableaux", "statement": "For every right-hand side, Euler, Rk4 and Rkf45 compute the explicit Runge-Kutta step of their Butcher tableau; the tableaux satisfy all order conditions up to order 1, 4 and 4 (Rkf45's error estimator: 5); every right-hand-side evaluation happens at a time within the step.", "quantifier": "all right-hand sides, dimensions, states and step lengths", "why_tests_cant": "All functions f.", "anchors": ["src/solver/euler.cpp", "src/solver/rk4.cpp", "src/solver/rkf45.cpp"]}
{"id": "C45", "title": "Polynomial and linear exactness", "statement": "Euler integrates constant, Rk4 and Rkf45 cubic polynomial right-hand sides f(t) exactly; on x' = a x Rk4 multiplies the state by 1+z+z^2/2+z^3/6+z^4/24, z = a h.", "quantifier": "all polynomials, states, steps", "why_tests_cant": "Identity over all parameters.", "anchors": ["src/solver/euler.cpp", "src/solver/rk4.cpp", "src/solver/rkf45.cpp"]}
{"id": "C46", "title": "Rkf45 step-size proposal", "statement": "Rkf45 proposes half, the same or double the attempted step; it proposes a smaller step exactly when the error estimate e satisfies eps*h/(2e) < 0.75^4 and never divides by zero.", "quantifier": "all right-hand sides and states", "why_tests_cant": "All error values.", "anchors": ["src/solver/rkf45.cpp"]}
{"id": "C47", "title": "Steppers are equivariant and keep linear invariants", "statement": "Permuting the state components permutes the result of a step and does not change the proposed step size; any linear quantity whose rate vanishes along the right-hand side is the same before and after every step.", "quantifier": "all right-hand sides, permutations and linear functionals", "why_tests_cant": "All functions and permutations.", "anchors": ["src/solver/euler.cpp", "src/solver/rk4.cpp", "src/solver/rkf45.cpp"]}
{"id": "C48", "title": "History returns what was recorded", "statement": "After any sequence of update(k, t) calls, time()(k) and history[sig](k) are the time and signal value at the most recent update with index k (zero if the signal was unassigned), for every recorded k, independent of the growth increment.", "quantifier": "all sequences of updates, all growth increments >= 1, all signal types", "why_tests_cant": "Arbitrary sequences and reallocation points.", "anchors": ["src/solver/history.cpp: update"]}
{"id": "C49", "title": "History never writes out of bounds and keeps its size", "statement": "No update accesses memory outside the buffers; nrows() is one more than the largest recorded index (0 if none); shrink_to_fit keeps exactly the first nrows() rows unchanged and is idempotent.", "quantifier": "all sequences of updates and shrinks", "why_tests_cant": "Arbitrary sequences and growth increments (including 0).", "anchors": ["src/solver/history.cpp: update, shrink_to_fit", "src/solver/history.hpp: nrows"]}
{"id": "C50", "title": "track and untrack maintain a set", "statement": "track adds a value signal once (returning whether it was added) and untrack removes exactly it, for any call sequence; buses are never tracked.", "quantifier": "all call sequences", "why_tests_cant": "Arbitrary sequences, including untracking a signal that is not tracked.", "anchors": ["src/solver/history.cpp: track, untrack"]}
{"id": "C51", "title": "Exported CSV is rectangular and complete", "statement": "Every line written by export_csv has as many fields as the header, the columns of a signal are the columns under its name, and the lines are exactly the recorded rows.", "quantifier": "all tracked signal sets, all recordings, all hash orders", "why_tests_cant": "All recordings and column orders.", "anchors": ["src/solver/history.cpp: export_csv"]}
{"id": "C52", "title": "Step callbacks bracket each evaluation", "statement": "For a model without state variables each run(t) calls, in this order: the input callback, pre_step of all blocks, the activation functions, post_step of all blocks, each pre_step/post_step exactly once per leaf and in insertion order.", "quantifier": "all models and histories", "why_tests_cant": "All hierarchies.", "anchors": ["src/solver/simulator.cpp: process_model", "src/block/submodel.hpp: pre_step, post_step"]}
{"id": "C53", "title": "A failed run can be retried", "statement": "If a run throws (for example from a user function) nothing the simulation depends on has advanced: time, block memories and integrator states are those of the last completed run, so repeating the call with the cause removed gives the result an undisturbed run would have given.", "quantifier": "all models, all points at which an exception can occur", "why_tests_cant": "Every crash point.", "anchors": ["src/solver/simulator_base.cpp: run"]}
{"id": "C54", "title": "A diagram can be simulated again by a new simulator", "statement": "A new simulator on a diagram that other simulators have processed before does the same as on a diagram with the same signal types and block members that has never been processed.", "quantifier": "all models, all leftover processed flags, all sequences of calls", "why_tests_cant": "Depends on the whole history of the block objects.", "anchors": ["src/block/leaf.cpp: process", "src/block/block.cpp: _mark_unprocessed", "src/solver/fast_simulator.cpp: init"]}
{"id": "C55", "title": "An evaluation solves the block equations", "statement": "When init(t) or run(t) returns, the values of the assigned signals satisfy, at time t, the equation of every block that had its turn (sum, product, gain, function, delayed value, difference quotient, ...); without algebraic loop the equations have only one solution for given inputs, states and block members, so the signals show that solution.", "quantifier": "all models, all histories of calls, every simulator kind", "why_tests_cant": "All diagrams and all orders of activation; a block may be activated with values that change later.", "anchors": ["src/solver/simulator.cpp: process_model", "src/solver/fast_simulator.cpp: process_model", "src/block/extra/*.hpp: activation_function"]}
{"id": "C56", "title": "A well-typed diagram never runs into undefined behaviour", "statement": "In a debug build, if the ports of all blocks have the types their classes work with (arrays that are added, subtracted, multiplied or divided have equal sizes), no call of init or run reads an indeterminate value, uses a value of another type, accesses a vector out of range or dereferences a null pointer, whatever calls (returning or throwing) came before; and all signals always hold values of their types and sizes.", "quantifier": "all models, all inputs, all histories of calls, every simulator kind", "why_tests_cant": "Undefined behaviour may pass unnoticed in a test, and the histories include calls that throw at any point.", "anchors": ["src/block/extra/delay.hpp", "src/block/extra/derivative.hpp", "src/solver/simulator_base.cpp: init, run, reset_with_state_variables, get_state_variables", "src/signal/array_signal.hpp"]}
{"id": "C57", "title": "With a complete diagram, init and run return", "statement": "In a debug build, if a diagram is well typed and complete (each signal is driven from one place, everything that is read is driven, there is no algebraic loop, the user's functions return and assign all outputs), init returns, and so does every later run whose time is not before the time reached (after it, if there is a Delay) and whose step sizes are positive and in order: no exception, no failed assertion, no undefined behaviour, no endless loop; afterwards all driven signals hold values of their types and the simulator is at the requested time.", "quantifier": "all complete models of any size and nesting, all inputs, all histories of such calls and of changes of signals by the user in between, every simulator kind, every provided stepper", "why_tests_cant": "A failure may depend on the order of the blocks, the hash order, the number of steps taken so far or what the user left in the signals; the claim is that nothing at all can fail.", "anchors": ["src/solver/simulator_base.cpp: init, run", "src/solver/simulator.cpp: process_model", "src/solver/fast_simulator.cpp: init, process_model", "src/block/extra/*.hpp"]}
{"id": "C58", "title": "Blocks are linked to what they use when they have been connected", "statement": "Once connect has returned for all objects of a diagram, each block is linked to every signal it uses: to those its activation function reads as required inputs (so that it waits for them), to those it assigns as outputs (so that the simulator clears and records them), to each signal once. The signals that the simulator integrates are exactly the outputs of the integrators, the derivative being the input of the same type and size; and the ports of blocks of library classes have the types the classes compute with, so that a diagram assembled in a debug build is well typed.", "quantifier": "all diagrams of all block classes, all buses, any order of the calls of connect", "why_tests_cant": "A missing link shows only for some orders of the blocks, as a stale or unassigned value.", "anchors": ["src/block/block.cpp: connect, link_signal", "src/block/extra/*.hpp: connect", "src/block/integrator_base.hpp: connect", "src/block/singleio.hpp"]}
{"id": "C59", "title": "What can be connected can be simulated", "statement": "In a debug build, if connect has returned for every block of a diagram, each signal on a bus is the output of exactly one block or assigned by the inputs, there is no algebraic loop (Memory and integrators break loops, a Delay does not), arrays on the buses of one block have one size and the user's functions return, then init returns and so does every later run with proper arguments; afterwards every signal on every bus has a value of its type and the simulator is at the requested time.", "quantifier": "all closed diagrams of library blocks, any nesting, any order of connect calls, all inputs, all histories of such calls, every simulator kind, every provided stepper", "why_tests_cant": "Depends on all combinations of block classes, of link flags set in connect and of processing orders.", "anchors": ["src/block/block.cpp: connect", "src/block/extra/*.hpp: connect", "src/solver/simulator_base.cpp: init, run", "src/solver/simulator.cpp: process_model"]}
{"id": "C60", "title": "A simulation applies the step formula to the differential equation of the diagram", "statement": "For a closed diagram (C59) of blocks without memory and at least one integrator there is a function f of time and state, the only one for which the equations of all blocks hold, such that: init starts with the initial values of the integrators, and after any sequence of calls of run for increasing times the integrators hold what the step formula yields when applied to x' = f(t, x) - with Euler and Rk4 exactly one step per call, with Rkf45 a sequence of steps that ends at the requested time - and the values of all signals, also those after init, solve the equations of the blocks at that time and state.", "quantifier": "all closed diagrams of library blocks without memory, all initial values, all inputs, all increasing sequences of times, all limits 0 < min < max of the step size, every simulator kind and processing order, Euler, Rk4, Rkf45", "why_tests_cant": "Tests compare a few diagrams with analytic solutions up to a tolerance.", "anchors": ["src/solver/simulator_base.cpp: init, run", "src/solver/euler.cpp: step", "src/solver/rk4.cpp: step", "src/solver/rkf45.cpp: step", "src/block/integrator_base.hpp"]}
{"id": "C61", "title": "The simulation converges to the solution of the differential equation", "statement": "Let y be a solution of the differential equation of a closed diagram (C59, C60) on an interval, starting with the initial values of the integrators: a continuous function whose derivative is bounded, and exists and is continuous except at finitely many times. Let the right-hand side be Lipschitz continuous in the state near y. Then for every tolerance there is a step size such that whenever run is called for increasing times in the interval that are no further apart, all calls return and the integrators hold y at the last time up to the tolerance, while the values of all signals solve the equations of the blocks for this state. If the derivative of y is Lipschitz continuous between the exceptional times, the error is at most a constant times the largest distance of the times.", "quantifier": "all closed diagrams of library blocks without memory over the real numbers, all solutions, all sequences of times (not only equidistant ones), every simulator kind, Euler, Rk4 and Rkf45 with every choice of its step sizes", "why_tests_cant": "A statement about the limit of infinitely many simulations.", "anchors": ["src/solver/euler.cpp: step", "src/solver/rk4.cpp: step", "src/solver/simulator_base.cpp: init, run", "src/block/integrator_base.hpp", "src/solver/rkf45.cpp: step"]}
{"id": "C62", "title": "Destroying blocks", "statement": "Whatever blocks have been destroyed, calls on the blocks that are left do not touch destroyed ones. (False: ~Block tells neither the parent nor the children. What holds: a call is defined if no block it follows pointers to has been destroyed - the blocks named, for traversals everything below, and for full names, which debug builds compute nearly everywhere, the ancestors; conversely a traversal that returns has found all of them alive. In particular all calls are defined while no block has been destroyed.)", "quantifier": "all programs that construct, link, rename, traverse and destroy blocks, all visitors and activation functions that do not do so themselves, debug and release builds", "why_tests_cant": "Reading a destroyed object often appears to work; tests destroy blocks only at the end of scopes, in reverse order of construction.", "anchors": ["src/block/block.hpp: ~Block", "src/block/submodel.hpp: _blocks", "src/block/block.cpp: full_name, set_parent", "src/block/submodel.cpp: visit, process, link_block, _mark_unprocessed", "src/block/leaf.cpp: process"]}
{"id": "C63", "title": "The traceback is restored and tells where an exception came from", "statement": "Every call, however it ends, leaves the traceback as it found it, and the destructor of a tracer never pops an empty one. In debug builds, if an exception leaves process (visit, pre_step, post_step) of a block, it came from a function of some block below, called when the traceback consisted of the entries of that block followed by one for each submodel from its parent up to the block of the call, each with place and full name, followed by the earlier entries; the message of pooya_verify lists just these.", "quantifier": "all hierarchies and states of the blocks, all activation functions and visitors that do not build or destroy blocks and keep the traceback, any depth, all exceptions", "why_tests_cant": "Concerns every way in which nested calls can be left; the tests only look at whether an exception is thrown.", "anchors": ["src/helper/trace.hpp", "src/helper/trace.cpp", "src/helper/util.cpp: pooya_throw_exception", "src/block/submodel.cpp", "src/block/leaf.cpp", "src/block/block.hpp: visit"]}
{"id": "C64", "title": "Signals live as long as they are accessible", "statement": "The reference count of each signal is the number of pointers to it in handles, buses and signals whose derivative it is; no call on non-null handles uses or destroys a destroyed signal; whatever is accessible from a handle exists; typed handles refer to signals of their class. A signal is destroyed as soon as it is not accessible any more - false if derivative signals form a cycle (x' = x): a signal left behind is always kept by such a cycle, and then for ever.", "quantifier": "all programs that create signals and buses, copy, cast, reset and destroy handles and set derivative signals, including those that go on after an exception", "why_tests_cant": "Leaks do not make a test fail, and which sequences of copies and resets matter cannot be enumerated.", "anchors": ["src/signal/signal.hpp", "src/signal/bus.hpp: BusImpl", "src/signal/float_signal.hpp: set_deriv_signal", "src/block/integrator_base.hpp: connect"]}
{"id": "C65", "title": "Following the pointers between blocks evaluates the tree", "statement": "For a hierarchy from which no block was destroyed and in which no block is its own ancestor, marking, processing (once, or until nothing is left to process), pre_step, post_step and visiting, which in the code follow pointers from block to block, have the results and the effects on signals, block members and flags that the corresponding functions on the tree of blocks have, fail with the same exception where these fail, and leave hierarchy and traceback unchanged. So whatever is proved for trees of blocks (C13 and following) holds for the objects the code works on.", "quantifier": "all programs that construct, link and rename blocks, all diagrams and states, debug and release builds, all visitors", "why_tests_cant": "Relates two ways of describing all executions.", "anchors": ["src/block/submodel.cpp", "src/block/submodel.hpp", "src/block/leaf.cpp", "src/block/block.hpp: visit", "src/solver/simulator.cpp: process_model"]}
{"id": "C66", "title": "The signals of a simulated drawing converge to the functions of time the drawing describes", "statement": "A drawing consists of blocks Const, Source, Gain, Add, Multiply, Subtract, Divide, Pipe, SISOFunction, Function, Integrator and Delay with their parameters, and of scalar signals between them; some signals are assigned by the user's input function. Its meaning are functions of time, one for each signal, that satisfy the equation of each block at all times, where the output of an integrator starts with the given initial value, is continuous and has the input as derivative except at finitely many times, and where the output of a Delay is the input at the time that lies back by the delay, or the initial signal while that is not after t0. If such functions exist on [t0, T], the denominators stay away from zero, the user's functions are bounded and, except at these times, continuous in time, and locally Lipschitz continuous in values, the delayed signals are continuous, the delays are known functions of time (inputs, sources or constants) that are not negative and stay below the lifespan of the block, every signal has one origin and there is no algebraic loop, then for every program that builds the drawing with connect and simulates it: for every tolerance there is a step size such that run(t0), run(t1), ... for increasing times no further apart return, and afterwards all signals hold the values of these functions at the last time up to the tolerance. Nobody has to call run for the exceptional times. If the integrands are Lipschitz continuous between the exceptional times and the delayed signals everywhere, the error is at most a constant times the largest distance of the times. Every such drawing can be built, without a method if it has no integrator. In particular the position computed by samples/test04_mass_spring.cpp tends to 0.1 sin t, the angle computed by samples/test05_pendulum.cpp to the angle of the pendulum, and the position computed by samples/tut01_mass_spring_damper.cpp, where a force is switched on at time 1, to rest and then the damped oscillation given by the formula; the output of the Delay in samples/delay_block.cpp tends to the delayed sine, and a simulated delay differential equation x'(t) = -x(t-1) to its solution.", "quantifier": "all drawings, all orders of connecting the blocks, all labels, all groupings of the blocks in submodels, every simulator kind, hash order and method (Euler, Rk4, Rkf45, none if there is no integrator), all sequences of times, all limits 0 < min < max of the step size", "why_tests_cant": "A statement about the limit of infinitely many simulations, for all diagrams; tests compare a few signals of a few diagrams with known solutions up to a tolerance.", "anchors": ["samples/test04_mass_spring.cpp", "samples/test05_pendulum.cpp", "samples/tut01_mass_spring_damper.cpp", "src/solver/simulator_base.cpp: init, run", "src/solver/euler.cpp: step", "src/solver/rk4.cpp: step", "src/solver/rkf45.cpp: step", "src/block/leaf.cpp: connect", "src/block/integrator_base.hpp", "samples/delay_block.cpp", "src/block/extra/delay.hpp"]}
{"id": "C67", "title": "What the sample programs record and export converges to the functions of time the drawing describes", "statement": "A program builds a drawing as in C66, tracks any of its signals with a History, calls run(t) and update(k++, t) for increasing times, then shrink_to_fit and export_csv. For every tolerance there is a step size such that, if consecutive times are no further apart, the program returns; the history has exactly one row for each of the times, in order; row k holds the k-th time and, for each tracked signal, the value at that time of the function of time that the drawing describes, up to the tolerance; and the file has one column for each tracked signal and one line for each of the times, with the same contents, whatever the order of the hash map. If the integrands are Lipschitz continuous between the exceptional times and the delayed signals everywhere, the error is at most a constant times the largest distance of the times. In particular the files written by samples/test04_mass_spring.cpp and samples/tut01_mass_spring_damper.cpp tend to 0.1 sin t, 0.1 cos t, and to rest followed by a damped oscillation; the rows recorded by samples/delay_block.cpp to the sine and the delayed sine.", "quantifier": "all drawings, simulators, methods and orders of blocks as in C66, all nonempty sets of tracked signals, all growth increments of the history, all hash orders, all sequences of times whose number fits into uint", "why_tests_cant": "A statement about the limit of infinitely many runs of complete programs, for all diagrams.", "anchors": ["samples/test04_mass_spring.cpp: main", "samples/tut01_mass_spring_damper.cpp: main", "src/solver/history.cpp: track, update, shrink_to_fit, export_csv", "src/solver/simulator_base.cpp: run", "samples/delay_block.cpp: main"]}
{"id": "C68", "title": "Rk4 and Rkf45 converge with order four on smooth drawings", "statement": "Take a drawing as in C66, with integrators and without Delay, and functions of time that satisfy it on [t0, T], where the functions of the sources and inputs have four continuous derivatives on [t0, T], and the user's functions in SISOFunction and Function have four continuous derivatives near the values they are called with. Simulated with Rk4 or Rkf45, every signal then differs from its function of time by at most a constant times the fourth power of the largest distance between the times given to run, for every simulator and every choice of increasing times; the same bound holds for what a History records and export_csv writes. In particular for the position of the mass-spring sample and the angle of the pendulum sample.", "quantifier": "all smooth drawings, all diagrams built from them, all simulators, Rk4 and Rkf45, all increasing lists of times with distances up to some step size, all initial conditions", "why_tests_cant": "A rate of convergence is about all step sizes below a bound; a wrong coefficient in the last stage still converges, and at the tolerances of tests it is not seen.", "anchors": ["src/solver/rk4.cpp", "src/solver/rkf45.cpp", "src/solver/simulator_base.cpp", "samples/test04_mass_spring.cpp", "samples/test05_pendulum.cpp"]}
{"id": "C69", "title": "Diagrams with Memory, Delay and Derivative blocks follow their equations from time to time", "statement": "Take a closed diagram of any provided blocks except TriggeredIntegrator, with or without integrators. init(t0) returns; afterwards the signals solve the equations of the diagram at t0 with what the blocks held when they were made and with the initial conditions as state, and Memory, Delay, Derivative and Integrator blocks have stored what they store at the end of a step. Calls of run for any increasing times return. Their results are a passage of the diagram through these times: with integrators, from each time to the next by accepted steps of the chosen method that follow each other (exactly one step for Euler and Rk4), applied to the right-hand side that the equations define with what the blocks stored at the end of the step before; without integrators, the equations hold at each of the times with what the blocks stored at the time before. With Euler, Rk4, or without integrators there is only one such passage: values, state and stored members are determined.", "quantifier": "all closed diagrams of these classes, all simulators, all methods or none, all orders of blocks and hash maps, all initial contents, all increasing lists of times", "why_tests_cant": "Tests run single diagrams for single lists of times; what a block has stored depends on all earlier calls.", "anchors": ["src/solver/simulator_base.cpp: init, run", "src/block/extra/memory.hpp", "src/block/extra/delay.hpp", "src/block/extra/derivative.hpp", "samples/delay_block.cpp", "samples/memory_block.cpp"]}
{"id": "C70", "title": "Simulation in floating-point arithmetic", "statement": "Take a closed diagram of any provided blocks except TriggeredIntegrator. With Euler, Rk4 or without integrators, whatever the arithmetic does (rounding, infinities, not-a-numbers in signals), init and all calls of run for times that follow each other return, and the results are those of the equations of the blocks and of the formulas of the method with each operation done in this arithmetic, with exactly one step from each time to the next (with a Delay, comparisons have to be total). With Rkf45 in arithmetic with rounding, the same holds with steps that follow each other and end exactly at each of the times, provided that the smallest step is at least sixteen times as large as the rounding errors of the times; for IEEE double numbers, times up to R/2 and a smallest step of at least R * 2^-49. The proviso is needed: if all step sizes that may be chosen are lost when added to the present time, run returns only if its first step is accepted; with double numbers, a start at 2^30 and steps of 30 to 60 nanoseconds there is a diagram for which it never returns.", "quantifier": "all closed diagrams of these classes, all simulators, all arithmetics (Euler, Rk4) or all monotone idempotent roundings (Rkf45), all initial contents, all increasing lists of representable times", "why_tests_cant": "Rounding depends on all values and times; an endless loop cannot be observed; tests run on one arithmetic, for few times.", "anchors": ["src/solver/simulator_base.cpp: run", "src/solver/rkf45.cpp", "src/solver/euler.cpp", "src/solver/rk4.cpp", "src/solver/simulator_base.hpp: run (default step sizes)"]}
{"id": "C71", "title": "Rounding errors do not pile up beyond the number of steps", "statement": "Take a diagram that is drawn from smooth blocks (no Delay), and the course of all its signals that the drawing describes from t0 to T. Let a program draw it and simulate it with Rk4 or Euler, in an arithmetic whose operations err by at most rho, with numbers and functions of the blocks that err by at most rho. There are a bound B and a largest step, which depend on the drawing, t0 and T alone, such that: for all calls run(t0), ..., run(t_n) whose times follow each other by more than B*rho and by at most eta, every call returns, and then all signals differ from the course by at most B*(eta^4 + (n+1)*rho) with Rk4, B*(eta + (n+1)*rho) with Euler. In particular, with p binary digits, p large enough, the error is at most B*(eta^4 + (n+1)/2^p).", "quantifier": "all such drawings, courses and intervals; all arithmetics, programs, initial contents and lists of times within these bounds; all simulators", "why_tests_cant": "A test sees one arithmetic, one diagram and finitely many times; it cannot tell rounding errors that grow with the number of steps from ones that grow faster.", "anchors": ["src/solver/rk4.cpp", "src/solver/euler.cpp", "src/solver/simulator_base.cpp: run", "src/block", "samples/test04_mass_spring.cpp"]}
{"id": "C72", "title": "What is added to a diagram without being used in it does not change its simulation", "statement": "Take two closed diagrams without TriggeredIntegrator, all blocks of the first being blocks of the second with the same buses, the inputs of the first having the same values in the second. Simulate both with Euler, or both with Rk4, by init(t0) and run for the same increasing times, from the same members of the common blocks. Then both simulations go through, and all signals of the first diagram and the members of its blocks have the same values in both, bit by bit in floating point. The simulators (Simulator with and without reuse_order, FastSimulator), the submodels, the order in which blocks were added, the order of hash tables and the limits for the step size may differ. With Rkf45 a part that has integrators still follows its own equations, with the steps of the whole; its results need not be those it has alone.", "quantifier": "all such pairs of programs, arithmetics (Rkf45: exact), initial contents, times and lists of times", "why_tests_cant": "A test adds one observer to one diagram and compares at finitely many times; that nothing ever leaks from the rest of a model into a part of it, through evaluation order, hash order or the packing of the state vector, is a statement about all models.", "anchors": ["src/solver/simulator_base.cpp", "src/solver/fast_simulator.cpp", "src/solver/euler.cpp", "src/solver/rk4.cpp", "src/solver/rkf45.cpp", "src/block/leaf.cpp: connect", "src/block/integrator.hpp"]}
{"id": "C73", "title": "The list of unprocessed blocks names the cause", "statement": "In debug builds Simulator::process_model prints, between the evaluation and post_step, the blocks that have not been processed, with the required signals that have no value. A leaf is listed exactly if it requires a signal without a value (BusBlockBuilders never are), and below it are exactly those signals, at least one. A submodel is listed exactly if a leaf in it is, without reuse_order, and never with reuse_order. Nothing is printed exactly if no leaf lacks a signal. The cause is in the list: from each listed leaf one comes, going from listed leaves to those that drive a signal they lack, to a leaf lacking a signal that nothing drives (no block, no state, no input), or to an algebraic loop. Conversely blocks that wait for each other are all listed, each with a signal only they drive. The list can be read back from the text. Printing changes nothing else; release builds and FastSimulator print nothing.", "quantifier": "all hierarchies of blocks not deeper than 2^32 levels, states at the start of an evaluation, times and names without line breaks (cause: blocks that assign their outputs when they run)", "why_tests_cant": "A test shows the list for one wrong diagram; that it never misses a cause and never accuses a block that ran is about all diagrams.", "anchors": ["src/solver/simulator.cpp: process_model", "src/block/submodel.cpp: visit", "src/block/block.hpp: linked_signals", "src/block/leaf.cpp: ready_to_process"]}
{"id": "C74", "title": "Blocks may be exchanged for others with the same equations", "statement": "Take two closed diagrams with some blocks in common, the other blocks of the first having neither memory nor state, such that whenever values of the signals satisfy the equations of the second diagram, those of the first can be satisfied too without changing the signals of the common blocks (e.g. one Gain of 6 and a Gain of 2 followed by a Gain of 3, in exact arithmetic; or a submodel and a Function that computes the same). Simulate both with Euler's method, both with Rk4, or without integrators, through the same times. Then init and all runs return, and after them the signals of the common blocks have the same values in both simulations, and the common blocks the same members, bit by bit in every arithmetic, whatever the simulators, the nesting and order of the blocks and the order of hash tables.", "quantifier": "all pairs of closed diagrams of blocks of the library with such equations, all arithmetics, simulators, initial members, sequences of increasing times", "why_tests_cant": "Comparing two models on one run says nothing about other inputs, states and times; here equality of all results follows from a statement about equations only.", "anchors": ["src/solver/simulator.cpp: run", "src/solver/simulator.cpp: init", "src/solver/euler.cpp", "src/solver/rk4.cpp", "src/block/extra"]}
{"id": "C75", "title": "Linear diagrams are simulated linearly", "statement": "Take several simulations of one closed diagram, all with Euler's method or all with Rk4, that differ in the values of the input signals, in what the blocks hold at the beginning, in the simulator, the nesting and order of blocks, in the step limits, and possibly in the origin of time. If every block keeps given linear relations between the simulations (Gain, Pipe, Memory, Derivative, Integrator, Add, Subtract, Delay with the same delays; Multiply and Divide if all factors but one, or the divisor, are the same in all simulations; functions of the user of signals that are the same), and the inputs and the initial members satisfy the relations, then in exact arithmetic init and all runs return, and after them the values of every signal satisfy its relation. In particular superposition: if the inputs and the initial values of a third simulation are a x + b y of those of two others, so are all signals at all times; and a linear diagram without inputs that begins with zeros has only zeros. Of Rkf45 this is false: its step sizes depend on the size of the error, and 10^6 times the initial value does not give 10^6 times the result.", "quantifier": "all closed diagrams of blocks of the library that keep the relations, all ordered archimedean fields, families of simulations, coefficients, inputs, initial members, sequences of increasing times", "why_tests_cant": "Superposition for three chosen inputs at chosen times says nothing of others; an error in one branch of one block (e.g. a Delay that extrapolates, a stage of Rk4 taken from the wrong slope) would show only for particular inputs.", "anchors": ["src/solver/simulator.cpp: run", "src/solver/euler.cpp", "src/solver/rk4.cpp", "src/solver/rkf45.cpp", "src/block/integrator.hpp", "src/block/extra"]}
{"id": "C76", "title": "The step size control follows its rules, and does not see what it should not see", "statement": "A call run(t, min_h, max_h) for a later time tries and accepts exactly the steps the rules prescribe, applied to the differential equation of the diagram: the first trial step goes to t; a step is accepted if it is not longer than the step size the method proposes or than min_h, or if the proposal before was not larger than min_h; a rejected step is tried again from the same state with the proposed step size (within the limits), and leaves no trace; an accepted one is followed by a step of the proposed size that does not go beyond t. This determines the simulation, in exact arithmetic: with Euler, Rk4 or Rkf45, all signals after init and every run have the same values, and the same steps are tried and accepted, whatever the simulator, the nesting and order of the blocks, the order of signals in hash tables, and the origin of time (if the user's functions and the inputs depend on the time since the beginning only). If a diagram is linear and the inputs and initial values change their signs, so do all results, with the same steps.", "quantifier": "the rules for a single call: all diagrams of blocks that change their members at the ends of steps only, all steppers, arithmetics, states between calls; the rest: all closed diagrams of blocks of the library but TriggeredIntegrator, all ordered archimedean fields, families of simulations, shifts of time, initial members, step limits, sequences of increasing times", "why_tests_cant": "Which steps Rkf45 takes depends on comparisons of computed errors; a dependence on the order of signals or on absolute time could show up for rare values only. Tests compare single runs with tolerances.", "anchors": ["src/solver/simulator_base.cpp: run", "src/solver/rkf45.cpp: step", "src/solver/simulator.cpp", "src/solver/fast_simulator.cpp"]}
{"id": "C77", "title": "Weighted sums of states that obey equations of their own are simulated by themselves", "statement": "If the equations of the blocks imply that the derivatives of some weighted sums of integrator outputs depend only on time and on these sums, then after init the sums have the values of the sums of the initial values, and after every run the values the chosen stepper (Euler, Rk4, Rkf45) computes for the differential equation of the sums alone (Euler and Rk4: with one step per run; Rkf45: with the steps the simulation takes). In particular balances are kept exactly: if the derivative of a weighted sum is a constant r by the equations, the sum at the end of every run is the sum of the initial values plus r times the time passed; with r = 0 it is conserved. Memory, Delay and Derivative blocks may occur.", "quantifier": "all closed diagrams of blocks of the library but TriggeredIntegrator with at least one integrator, all simulators, all finite families of weighted sums of components of scalar and array states, all right-hand sides for them, all ordered archimedean fields, initial members, step limits, sequences of increasing times", "why_tests_cant": "Tests see a balance kept within rounding for a few diagrams and times. That it is kept by every diagram with every sequence of accepted and rejected steps depends on all stages of a step being evaluated at states that belong together, and on no state being packed or unpacked in the wrong place.", "anchors": ["src/solver/simulator_base.cpp: run", "src/solver/euler.cpp: step", "src/solver/rk4.cpp: step", "src/solver/rkf45.cpp: step", "src/block/integrator.hpp"]}
{"id": "C78", "title": "A simulation with step size control can be repeated bit by bit, with rounding", "statement": "In floating-point arithmetic (operations rounded, nothing overflowing), two programs that connect the same blocks to the same signals and give them the same inputs and members at the beginning compute the same: after init(t0) and every run, with Euler, Rk4 or Rkf45, all signals and all members of blocks are equal bit by bit, and the same steps were tried and accepted. The simulators, the nesting and the order in which blocks were added, and the order of signals in hash tables - so the order of the state variables in the state vector - may differ. The rules of the step size control determine the course in any arithmetic.", "quantifier": "determinism: all closed diagrams, arithmetics, methods, limits; the rest: all pairs of closed diagrams of blocks of the library but TriggeredIntegrator with the same blocks, all simulators, Euler, Rk4, Rkf45, all roundings with an absolute error bound in the range of the times (in particular binary with any number of digits, so double), smallest step at least sixteen such errors, all increasing sequences of representable times", "why_tests_cant": "Rounded sums depend on the order of their terms, and one accepted or rejected step more changes everything after it. A test on one machine has one order of signals in hash tables; that no computed number depends on it cannot be seen there.", "anchors": ["src/solver/simulator_base.cpp: run", "src/solver/rkf45.cpp: step", "src/solver/simulator.cpp", "src/solver/fast_simulator.cpp"]}
{"id": "C79", "title": "Diagrams with TriggeredIntegrators follow their equations and resets", "statement": "A diagram with TriggeredIntegrators is simulated by these rules. Every trial step begins by setting the integrators with a noted trigger to zero and deleting the note. The state variables of the step are those of the integrators then. Every evaluation of the equations in the step, also in one that is rejected later, notes each trigger that is set there. When a step is accepted, the state variables are stored in the integrators, and the triggers at its end are noted. The steps tried and accepted obey the rules of the step size control. init(t0) (but for FastSimulator) carries out pending resets and ends with the values of the equations at t0. These rules determine all signals and members, so the simulator's processing order does not matter for run. If no trigger is ever set, a TriggeredIntegrator is an Integrator.", "quantifier": "rules, determinism, processing order, no triggers: all arithmetics, limits, sequences of increasing times; rules: all diagrams with one driver per signal whose user-written leaves change members only in post_step; determinism, order, init: all closed diagrams; that the calls return: exact arithmetic, Euler, Rk4, Rkf45", "why_tests_cant": "Whether a reset happens depends on the trigger at the inner stages of steps, also of rejected ones. Tests see the end of accepted steps, with a few triggers and step sizes.", "anchors": ["src/block/extra/triggered_integrator.hpp", "src/block/integrator_base.hpp", "src/solver/simulator_base.cpp: run, init"]}
{"id": "C80", "title": "Array signals are simulated coefficient by coefficient, and symmetric diagrams stay symmetric", "statement": "Take a diagram with array signals, and a second one for one coefficient: each signal of the second stands for a signal of the first or for one coefficient of it, each block does to its signals what a block of the first does to the coefficients, and the initial values are the coefficients. Simulated with Euler's method or Rk4 through the same times, the signals of the second have the values of the coefficients they stand for after every call of run, in every arithmetic, and so have the members of its blocks; the names of signals and blocks, the other coefficients and further blocks do not matter. With Rkf45 this is false, because the step size depends on all coefficients. If a diagram is found in itself by exchanging signals and blocks, and the initial values are the same for those exchanged, the exchanged signals have the same values after every call of run, with all methods.", "quantifier": "all pairs of closed diagrams without TriggeredIntegrators and user-written classes of which one is found in the other, all simulators, all arithmetics, all sequences of increasing times; symmetry: exact arithmetic, all methods provided", "why_tests_cant": "The coefficients could influence each other through the packing of states into one vector, a broadcast, or an array assigned at another offset, for some size, order of states or number of blocks no test has.", "anchors": ["src/signal/array_signal.hpp", "src/solver/simulator_base.cpp: run, init", "src/block/integrator_base.hpp", "src/solver/euler.cpp","src/solver/rk4.cpp","src/solver/rkf45.cpp"]}
{"id": "C81", "title": "connect accepts exactly the buses that suit the class, uses the entries meant, and throws otherwise", "statement": "connect on a new block object of any class provided returns exactly if the input and output bus have the number of entries the class asks for, the entries the class uses have its value type (for integrators: input and output of the same floating type and size), the labels in, delay, initial and trigger are found where the class asks for them, and the signals named by user functions are found. The object then uses exactly these entries. In every other case it throws an exception; there is no undefined behaviour. Several objects are connected exactly if each suits its buses, whatever the order. Debug builds accept nothing that release builds refuse, and the result is the same.", "quantifier": "all block classes, all value types, all buses with any nesting and any labels, both kinds of builds, all lists of objects", "why_tests_cant": "Tests connect a few objects with matching buses; the claim is about every combination of class, value type, number of entries, label and nesting, including those that must be refused.", "anchors": ["src/block/block.cpp: connect", "src/block/singleo.hpp", "src/block/singleio.hpp", "src/block/extra/add.hpp", "src/block/extra/subtract.hpp", "src/block/extra/delay.hpp", "src/block/extra/triggered_integrator.hpp", "src/block/integrator_base.hpp", "src/signal/bus.hpp: at"]}
{"id": "C82", "title": "Simulations return and keep their times even if signals overflow or are not numbers", "statement": "In IEEE 754 arithmetic with overflow, infinities and not-a-numbers, a closed diagram of provided blocks (all classes but TriggeredIntegrator) can be simulated whatever the values of its signals become: init and all calls of run with increasing times return with Euler, Rk4 and Rkf45, if the smallest step is well above rounding errors of the times, and the accepted steps follow each other and end exactly at the requested times. An accepted step larger than the smallest one has an error estimate within the tolerance.", "quantifier": "all closed diagrams, all initial values, inputs and functions (finite or not), all increasing times in the range, all step sizes in order, all three strategies and methods, all arithmetics that round correctly within the range and do anything beyond it", "why_tests_cant": "Overflow and not-a-numbers are rare in tests and their propagation depends on all values; termination and times for every course of the values cannot be sampled.", "anchors": ["src/solver/simulator_base.cpp:119-222", "src/solver/rkf45.cpp:25-61", "src/block/extra/delay.hpp:83-115"]}
{"id": "C83", "title": "Reading the exported file gives back what was recorded", "statement": "A program that reads the file written by export_csv, splitting lines at line feeds and fields at commas, finds the headings of the recorded signals (name, or name[0], name[1], ... for arrays) and the recorded numbers, each up to half a unit in the sixth digit and exactly if it has at most six digits; numbers are read in the order of those recorded.", "quantifier": "all recordings without gaps followed by shrink_to_fit, all strings the signals were named with, all orders of the hash map, all finite numbers", "why_tests_cant": "Whether a name or number breaks the format depends on all strings and all numbers (rounding carries, the choice between fixed and exponent style, trailing zeros); tests try a few.", "anchors": ["src/solver/history.cpp:145-204", "src/shared/named_object.hpp:27-82"]}
{"id": "C84", "title": "Triggered resets in floating-point arithmetic", "statement": "With double arithmetic (every operation rounded), a closed diagram of blocks of all provided classes with at least one Integrator or TriggeredIntegrator is initialized, run returns for all increasing representable times within a range, the accepted steps begin where the previous one ended and end exactly at each requested time (with Euler and Rk4 there is one step per call), and the signals and members follow the rounded equations with the resets of the triggered integrators; also if values of signals overflow, become infinite or not-a-numbers.", "quantifier": "all closed diagrams, all steppers provided, all processing orders, all initial values and inputs, all increasing times and step limits with a smallest step at least sixteen times the rounding error of the times", "why_tests_cant": "Whether an adaptive loop with resets noted in rejected trial steps terminates and meets each time depends on rounding of all times, step sizes and states, and on values that may overflow.", "anchors": ["src/block/extra/triggered_integrator.hpp", "src/block/integrator_base.hpp", "src/solver/simulator_base.cpp: run, init", "src/solver/rkf45.cpp"]}
{"id": "C85", "title": "Memory, Derivative and Delay of functions of time", "statement": "In a simulation of a closed diagram at increasing times with gaps of at most h, a Memory whose input is a function f of time shows f at the end of the step before; a Derivative shows the slope of the chord of f over the last step; a Delay whose delay is at least h and at most its lifespan less h shows its initial value until the delayed time passes the beginning, and then a point of a chord of f over an interval not longer than h around the delayed time, whatever has been forgotten. If f has a derivative with Lipschitz constant M, the Derivative is within M h / 2 of the derivative of f and the Delay within M h^2 / 8 of the delayed function; a Memory of a function with Lipschitz constant L is within L h of it.", "quantifier": "all closed diagrams with such a block anywhere in them, all inputs that are functions of time, all sequences of times, all processing orders and steppers provided", "why_tests_cant": "The bounds hold for all functions and all sequences of times; that no needed record of a Delay is forgotten depends on the whole history of steps.", "anchors": ["src/block/extra/memory.hpp", "src/block/extra/derivative.hpp:42-68", "src/block/extra/delay.hpp", "src/solver/simulator_base.cpp: run"]}
{"id": "C86", "title": "Blocks with infinite inputs or not-a-numbers", "statement": "In floating-point arithmetic with overflow, the outputs of Gain, Subtract and Divide (and all sums, products and comparisons made by blocks and steppers) are the rounded limits of the results for numbers near the inputs, where an infinity stands for arbitrarily large numbers, a not-a-number for all numbers, and a zero denominator for small positive numbers; they are not-a-numbers exactly if there is no such limit, and infinite if the rounded limit exceeds the largest number. A comparison holds exactly if it holds for all numbers near the operands.", "quantifier": "all pairs of values (numbers, infinities, not-a-numbers), all roundings and largest numbers, all states of the signals", "why_tests_cant": "The cases of infinities and not-a-numbers in each position of each operation are rarely reached; the claim also covers all finite values and roundings.", "anchors": ["src/block/extra/gain.hpp", "src/block/extra/subtract.hpp", "src/block/extra/divide.hpp", "src/signal/scalar_signal.hpp:41-57"]}
{"id": "C87", "title": "An Integrator of a function of time adds up a rule for integrals", "statement": "If the input of an Integrator is a function f of time, its output after any sequence of runs is its initial value plus the sum, over the accepted steps, of the rule of the method for the integral of f: left end times length with Euler, Simpson's rule with Rk4, the Fehlberg rule with Rkf45. Hence with Rk4 and Rkf45 polynomials of degree three are integrated exactly, whatever the times; with Euler the error is at most L/2 h times the time passed if f has the Lipschitz constant L and h is the largest gap; with Rk4 at most L/2880 h^4 times the time passed if the third derivative has the Lipschitz constant L. An Integrator of a Derivative does not give back the signal: for a constant signal c it drifts with the slope c (Euler), c/6 (Rk4), 25c/216 (Rkf45).", "quantifier": "all closed diagrams of provided blocks other than TriggeredIntegrators, all functions of time, all increasing sequences of times, all methods, all ordered fields (real numbers for the error bounds)", "why_tests_cant": "Tests compare a few simulations with a few integrals; the rule and the bounds hold for all functions, diagrams and times.", "anchors": ["src/block/integrator.hpp", "src/block/extra/derivative.hpp:42-76", "src/solver/euler.cpp", "src/solver/rk4.cpp", "src/solver/rkf45.cpp", "src/solver/simulator_base.cpp"]}
{"id": "C88", "title": "What the methods make of decay and oscillation", "statement": "If the input of an Integrator is c times its output, its output after any sequence of runs is its initial value times a product of factors, one for each accepted step: the Taylor polynomial of exp(c h) of degree 1 (Euler), of degree 4 (Rk4), or of degree 4 plus (c h)^5/104 (Rkf45). For c <= 0 and gaps shorter than 1/|c| it keeps its sign and does not grow; with Rk4 it keeps its sign for all gaps. For two Integrators with x' = v and v' = -k x, k >= 0, the energy v^2 + k x^2 never decreases with Euler, never increases with Rk4 if k h^2 <= 8 for the largest gap h, and never decreases with Rkf45 if k h^2 <= 5. With Euler or Rk4 and equal gaps it is multiplied by the same number in each step.", "quantifier": "all closed diagrams of provided blocks other than TriggeredIntegrators that contain such Integrators, all increasing sequences of times, all methods, all ordered fields", "why_tests_cant": "Tests compare a few runs of one mass and spring; drift of energy shows only in long runs, and the sign of the drift for all gaps and stiffnesses cannot be sampled.", "anchors": ["samples/test04_mass_spring.cpp", "src/block/integrator.hpp", "src/block/extra/gain.hpp", "src/solver/euler.cpp", "src/solver/rk4.cpp", "src/solver/rkf45.cpp", "src/solver/simulator_base.cpp"]}
{"id": "C89", "title": "The file exported from a simulation that overflowed can be read", "statement": "A program that reads the file written by export_csv finds the headings of the recorded signals and one field for each recorded value, even if some values are infinite or not numbers. It reads infinities with their signs, not-a-numbers as such, and finite numbers to six digits; fields that are read alike were written for values of the same kind.", "quantifier": "all recordings without gaps, all names of signals, all orders of the hash map, all signs of zeros and of not-a-numbers", "why_tests_cant": "Tests export a few finite signals; infinities and not-a-numbers occur only after overflow, and whether any text can be confused with another concerns all numbers.", "anchors": ["src/solver/history.cpp:143-203"]}
{"id": "C90", "title": "Memory blocks make a diagram a machine with discrete time", "statement": "If the inputs of some Memory blocks are computed from the time and from their own outputs, then after init(t0) and any sequence of runs each block shows what the machine, applied once for each of the times before the last one to the initial values of the blocks, holds. In particular n Memory blocks one behind the other delay a signal by n runs and show each other's initial values before; a Memory block whose input is the sum of its output and a signal adds up the signal; one whose input is the weighted mean a z + (1 - a) u of its output and a signal stays between the bounds of both for 0 <= a <= 1 and approaches a constant signal like a^n.", "quantifier": "all closed diagrams of provided blocks other than TriggeredIntegrators (also with other Memory blocks and Integrators), all increasing sequences of times, without stepper or with Euler or Rk4; the machine and the chain for values of all types and every arithmetic, the sum and the mean over ordered fields", "why_tests_cant": "Tests run one Memory block for a few steps; whether a whole network of them keeps in step over every number of runs, whatever the order of processing, is a claim about all networks and runs.", "anchors": ["src/block/extra/memory.hpp:34-66", "samples/memory_block.cpp", "src/solver/simulator_base.cpp:119-244"]}
{"id": "C91", "title": "A mass with a spring and a damper settles", "statement": "In a diagram of two Integrators, where the input of the first is the output v of the second and the input of the second is u(t) - k x - c v, while the force u is a constant k e, the quadratic form v^2 + c (x - e) v + k (x - e)^2 is multiplied in each accepted step of length h by a polynomial in c h and k h^2 that depends only on the method, and a mass that rests at e stays there. With 0 <= c, c^2 <= 4 k and small gaps (Euler: k g <= c; Rk4: k g^2 <= 1; Rkf45: k g^2 <= 1 and k^3 g^5 <= 20 c) the form never increases. Under any force the difference of two simulations with different initial values (Euler, Rk4) behaves like a simulation without force. The mass of the tutorial sample stays at 0 before time 1 and then approaches 10/7.", "quantifier": "all closed diagrams of provided blocks other than TriggeredIntegrators in exact arithmetic, all increasing sequences of times, all initial values, all three methods (any force and a beginning in the middle only with Euler and Rk4)", "why_tests_cant": "The sample is run for one list of times and looked at in a plot; that the simulated motion settles, where, and how fast for every stiffness, damping and sequence of steps is a claim about all of them.", "anchors": ["samples/tut01_mass_spring_damper.cpp", "samples/test09_mass_spring_damper.cpp", "src/solver/euler.cpp", "src/solver/rk4.cpp", "src/solver/rkf45.cpp", "src/block/integrator.hpp", "src/solver/simulator_base.cpp:119-244"]}
{"id": "C92", "title": "What is at rest stays at rest", "statement": "If values for all signals of a diagram satisfy the equations of its blocks at all times from t0 to T, the inputs of all Integrators are 0 and their outputs are the values they begin with, the input and output of each Memory are the value it begins with, the input, initial value and output of each Delay are equal, and the input of each Derivative is the value 0 it begins with (any constant, if there are no Integrators), then after init(t0) and after every call of run for a time up to T all signals have exactly these values. The pendulum of one sample stays where the torque carries it; the pendulum with the PI controller of another rests at the angle asked for and nowhere else.", "quantifier": "all closed diagrams of provided blocks other than TriggeredIntegrators with signals of scalars and arrays, in exact arithmetic (without Delay also in arithmetic with rounding, such as double, if the diagram is at rest at all times), all increasing sequences of times, Euler, Rk4, Rkf45 or no method, all simulators", "why_tests_cant": "A test runs one diagram from one state for a few steps; the claim is about every diagram with an equilibrium, every sequence of times and every step Rkf45 chooses.", "anchors": ["src/solver/simulator_base.cpp:119-244", "src/block/integrator.hpp", "src/block/extra/memory.hpp", "src/block/extra/delay.hpp", "src/block/extra/derivative.hpp", "src/solver/euler.cpp", "src/solver/rk4.cpp", "src/solver/rkf45.cpp", "samples/test06_pendulum_with_torque.cpp", "samples/test07_pendulum_with_pi.cpp"]}
{"id": "C93", "title": "With small gaps Euler does not leave what cannot be left", "statement": "Let S be a set of values of the Integrators' outputs that contains with two states all between them. If from every state in S at any time from t0 on the straight way along the derivatives for the time g ends in S, then a simulation with Euler that begins in S and is asked for times with gaps of at most g is in S after init(t0) and after every call of run. In particular bounds for the outputs of the Integrators are kept. With larger gaps the set can be left: the model x' = -xy, y' = xy beginning with x = 3 and y = 1 keeps both from being negative with gaps of at most 1/4, and shows x = -3 after one gap of 2.", "quantifier": "all closed diagrams of provided blocks other than TriggeredIntegrators with signals of scalars and arrays, in exact arithmetic, all such sets and sequences of times, all simulators", "why_tests_cant": "A test follows one diagram through one sequence of times; the claim is about every set, every state in it and every sequence of gaps up to g.", "anchors": ["src/solver/euler.cpp", "src/solver/simulator_base.cpp:119-244", "src/block/integrator.hpp"]}
{"id": "C94", "title": "Nearby beginnings stay near", "statement": "Let the inputs of the Integrators in two states that differ by at most d differ by at most L d at each time from t0 on. Then two simulations of the diagram from initial values that differ by at most d, asked for the same times with Euler or Rk4, differ after every call of run by at most d times what the method makes of 1 with the differential equation x' = L x, and so by at most d exp(L (t - t0)). This bound can be reached. If two states are never farther apart after following their derivatives for the time g, two simulations with Euler asked for times with gaps of at most g are never farther apart than their initial values.", "quantifier": "all closed diagrams of provided blocks other than TriggeredIntegrators with signals of scalars and arrays, all pairs of initial values, in exact arithmetic, all increasing sequences of times, all simulators", "why_tests_cant": "A test compares two simulations of one diagram at a few times; the claim is about every diagram with Lipschitz continuous derivatives, every pair of beginnings and every sequence of times.", "anchors": ["src/solver/euler.cpp", "src/solver/rk4.cpp:24-37", "src/solver/simulator_base.cpp:119-244", "src/block/integrator.hpp"]}
{"id": "C95", "title": "Diagrams that differ little are simulated with little difference, and smaller ones stay smaller", "statement": "Let the inputs of the Integrators in a state of one diagram and a state of another one that differ by at most d differ by at most L d + e at each time from t0 on. Then the two simulations, asked for the same times with Euler or Rk4, differ after every call of run by at most d exp(L (t - t0)) + e/L (exp(L (t - t0)) - 1), where d is the difference of the initial values. With Euler it is enough that this holds where the second diagram is in a convex set it cannot leave. If a state of one diagram that is nowhere greater than a state of another one is not greater either after both follow their derivatives for the time g, the simulation of the one with Euler and gaps of at most g stays below that of the other.", "quantifier": "all pairs of closed diagrams of provided blocks with Integrators and without TriggeredIntegrators with signals of scalars and arrays, all initial values, in exact arithmetic, all increasing sequences of times, all simulators (also different ones for the two)", "why_tests_cant": "A test compares two programs at a few times; the claim is about every pair of diagrams with similar derivatives and every sequence of times.", "anchors": ["src/solver/euler.cpp", "src/solver/rk4.cpp:24-37", "src/solver/simulator_base.cpp:119-244", "src/block/integrator.hpp"]}
{"id": "C96", "title": "What must not be negative does not become negative by rounding", "statement": "In arithmetic with rounding, let some outputs of Integrators be such that, where they are not negative, the straight way along the computed derivatives for the time g does not make them negative. Then a simulation with Euler that is asked for times with gaps of at most g shows no negative value of them after any call of run, if none is negative at the beginning. If moreover the computed derivatives of outputs are not positive, these outputs never get above their initial values. In general no set of states is left that computed steps of at most g do not leave.", "quantifier": "all closed diagrams of provided blocks with Integrators and without TriggeredIntegrators with signals of scalars and arrays, all initial values that can be represented, all monotone roundings that do not depend on the sign (among them rounding to nearest with p binary digits, p = 53 for double), all increasing sequences of times that can be represented and whose size the resolution allows", "why_tests_cant": "A test sees some numbers stay positive; a negative value by rounding would appear only for rare combinations of values and step sizes.", "anchors": ["src/solver/euler.cpp", "src/solver/simulator_base.cpp:119-244", "src/block/integrator.hpp"]}
{"id": "C97", "title": "Drawings that differ little are simulated with little difference", "statement": "Take two drawings (blocks with their parameters and the names of the signals between them) without Delays whose Integrators have the same outputs. Let the inputs of the Integrators differ by at most L d + e where their outputs differ by at most d and the equations of the blocks hold, at each time from t0 on. Then the two programs, asked for the same times with Euler or Rk4, show after every call of run numbers at the Integrators that differ by at most d exp(L (t - t0)) + e/L (exp(L (t - t0)) - 1), where the initial values differ by at most d. For the pendulum of samples/test06_pendulum_with_torque.cpp L is 98.1, and e is 500 times the difference of the torques.", "quantifier": "all pairs of closed drawings of the blocks Const, Source, Gain, Add, Multiply, Subtract, Divide, Pipe, SISOFunction, Function, Integrator with scalar signals, all orders and groupings in which they are connected, all initial values, all simulators (also different ones for the two), in exact arithmetic, all increasing sequences of times", "why_tests_cant": "A test compares two programs at a few times; the claim is about every pair of drawings with similar equations and every sequence of times.", "anchors": ["samples/test06_pendulum_with_torque.cpp:37-101", "src/solver/euler.cpp", "src/solver/rk4.cpp:24-37", "src/solver/simulator_base.cpp:119-244", "src/block/integrator.hpp"]}
{"id": "C98", "title": "What comes back once comes back for ever", "statement": "Let the functions the user wrote and the inputs have the period c, or not look at the clock. If after runs for the times us and then vs a diagram is back where it was after us - it is c later, all signals have the same values, and the members of the blocks are the same but for recorded times that are c later -, then it comes back after every further round: run for vs again and again, each time c later, and after n rounds for any further times ts + n c, all signals have the values they have after us and ts. So an oscillation a method makes up never dies out: Euler's method with steps of length 1 makes x' = -2 x swing between x and -x for ever.", "quantifier": "all closed diagrams of blocks of the library but TriggeredIntegrator, all ordered archimedean fields with exact arithmetic, Euler, Rk4 and Rkf45, all simulators, periods, step limits, increasing sequences of times us, vs, ts, and all numbers n of rounds", "why_tests_cant": "A test can watch a few rounds; that nothing hidden (records of Delays, step size control, the order of evaluation) makes a later round different is a claim about all of them.", "anchors": ["src/solver/simulator_base.cpp:119-244", "src/solver/euler.cpp:24-31", "src/solver/rk4.cpp:24-37", "src/solver/rkf45.cpp:25-61", "src/block/extra/delay.hpp", "src/block/extra/derivative.hpp"]}
{"id": "C99", "title": "Initial values are forgotten, and disturbances do not add up", "statement": "Let two diagrams (or one) be such that states that differ by at most d differ by at most (1 - mu g) d + g e after following their derivatives for the time g. Then two simulations with Euler, asked for the same times with gaps of at most g, differ after every call of run by at most p d + (1 - p) e / mu, where p is the product of 1 - mu h over all gaps h. If mu g is at most 1, then p is at most 1 / (1 + mu (t - t0)): at late times the initial values do not matter, and a difference of at most e in the derivatives makes a difference of little more than e / mu in the states, however long the simulation is. With larger gaps this is false: x' = -x with a gap of 3 makes a difference of 1 into one of 2.", "quantifier": "all pairs of closed diagrams of blocks of the library but TriggeredIntegrator with scalars and arrays of any size, all ordered archimedean fields with exact arithmetic, all pairs of simulators, all step limits, initial values, and increasing sequences of times with gaps of at most g", "why_tests_cant": "Tests simulate for a short time; that an error stays bounded for ever, and that it fades however the gaps are chosen, is a claim about all lengths of a simulation.", "anchors": ["src/solver/euler.cpp:24-31", "src/solver/simulator_base.cpp:119-244", "src/block/integrator.hpp", "src/block/integrator_base.hpp"]}
{"id": "C100", "title": "A simulation follows a moving target", "statement": "Let following the derivatives of a diagram for the time g bring states that are at most d away from a target r(t) to at most (1 - mu g) d + g e away from it, and let the target move with a speed of at most v. Then in a simulation with Euler with gaps of at most g, where mu g is at most 1, the states are after every call of run for a time t at most d / (1 + mu (t - t0)) + (e + v) / mu away from r(t), where d is the distance at the beginning. For instance, an Integrator with the input k (u - x) follows u, and is in the end no more than the speed of u divided by k behind.", "quantifier": "all closed diagrams of blocks of the library but TriggeredIntegrator with scalars and arrays of any size, all targets, all ordered archimedean fields with exact arithmetic, all simulators, step limits, initial values, and increasing sequences of times with gaps of at most g; all drawings without Delay", "why_tests_cant": "A test follows one target for some time; that no target within the speed limit can be lost, however long the simulation and however the times are chosen, is a claim about all of them.", "anchors": ["src/solver/euler.cpp:24-31", "src/solver/simulator_base.cpp:119-244", "src/block/integrator.hpp", "src/block/integrator_base.hpp"]}
{"id": "C101", "title": "Units do not matter", "statement": "Let a second diagram be the first one in other units: where its states at the time c t + d are k x + o for the states x of the first one at the time t (each number with a k and an o of its own), its derivatives are k / c times the others. Then two programs with Euler or Rk4, asked for the times ts and c ts + d, show states x and k x + o after every call of run, if they do at the beginning; the step limits need not be converted. This is false of Rkf45, whose tolerance is a fixed number: in units that are a million times smaller x' = x gives other results.", "quantifier": "all pairs of closed diagrams of blocks of the library but TriggeredIntegrator with scalars and arrays of any size, all units k, o, c > 0, d, all ordered archimedean fields with exact arithmetic, Euler and Rk4, all pairs of simulators, all step limits, initial values, and increasing sequences of times; all pairs of drawings without Delay", "why_tests_cant": "A test compares two sets of units for one diagram; that no units can make a difference, for no diagram and no sequence of times, is a claim about all of them.", "anchors": ["src/solver/euler.cpp:24-31", "src/solver/rk4.cpp:24-37", "src/solver/rkf45.cpp:25-61", "src/solver/simulator_base.cpp:119-244", "src/block/integrator.hpp", "samples/test06_pendulum_with_torque.cpp:37-101"]}
