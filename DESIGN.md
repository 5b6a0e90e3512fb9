# Formal model of modjtabaf/pooya in Lean 4 — design

## 1. What is modelled

pooya is a block-diagram simulator: value *signals* are written once per
evaluation, *leaf blocks* read required signals and write outputs, *submodels*
group blocks, a *simulator* evaluates the diagram and drives an ODE *stepper*,
and a *history* records signals.  The model lives in `lean/Verif/Model/`, one file
per source group; every definition cites the file and lines it models.

| Lean module (`Verif.Model.*`) | C++ source |
|---|---|
| `Base`      | exceptions / UB outcomes, `pooya_debug_verify` switch, arithmetic interface |
| `Name`      | `src/shared/named_object.{hpp,cpp}` |
| `Signal`    | `src/signal/{signal,value_signal,float_signal,scalar_signal,int_signal,bool_signal,array_signal}.hpp` |
| `Bus`       | `src/signal/bus.hpp` |
| `Topology`  | parent/child part of `src/block/{block,submodel}.{hpp,cpp}`, `full_name`, `visit` |
| `Connect`   | `Block::connect`, `link_signal`, `find_linked_signal`, the `connect` of every leaf class |
| `Blocks`    | `pre_step` / `activation_function` / `post_step` of every leaf class |
| `Engine`    | `Leaf::process`, `Submodel::process`, `_mark_unprocessed`, `Simulator::process_model`, `FastSimulator` |
| `Stepper`   | `euler.cpp`, `rk4.cpp`, `rkf45.cpp` |
| `Simulator` | `SimulatorBase::{init,run,reset_with_state_variables,get_state_variables}` |
| `Report`    | the list of unprocessed blocks printed by `Simulator::process_model` in debug builds |
| `BusBlocks` | `BusBlockBuilder`, `BusPipe`, `BusMemory` |
| `History`   | `src/solver/history.{hpp,cpp}` |
| `Build`     | objects of the leaf classes and the calls of `connect` that assemble a diagram |
| `Lifetime`  | the functions of `src/block/{block,submodel,leaf}` that follow pointers to blocks, for programs that destroy blocks; `src/helper/trace.{hpp,cpp}` |
| `Ownership` | the `shared_ptr`s in `src/signal/{signal,bus,float_signal}.hpp` and their reference counts |
| `Field`     | exact arithmetic: the `Arith` instance of an ordered field |
| `Extended`  | floating-point arithmetic with overflow, infinities and not-a-numbers |
| `Rounded`   | floating-point arithmetic: exact operations followed by rounding; the rounding of IEEE 754 without overflow and subnormal numbers |

### Modelling conventions

* **Outcomes.** Effects run in `EStateM Err World`, so a computation ends in `ok`
  or in `error e` *with the state reached so far* (C++ objects survive a throw).
  `Err` separates C++ exceptions (`exc`), undefined behaviour (`ub`, e.g. null
  dereference, bad `static_cast`, out-of-range write) and `fuel`, the model's own
  "loop bound exhausted", which theorems show is never reached for enough fuel.
* **Debug/release.** `dbg : Bool` selects whether `pooya_debug_verify` is active.
* **Arithmetic.** `double` is an abstract type `K` with an operations-only
  interface `Arith K` (`+. -. *. /. <. <=. ==.`, literals) **without laws**.  Everything
  about scheduling, bookkeeping, clearing, build modes, history, ... is proved for
  every `Arith K`, hence also for IEEE doubles.  Only the numeric theorems
  (C27–C29, C38–C40, C44–C47, C59–C61, C66–C69, one half of C57 and one of C72) assume `K` is a linearly ordered field, i.e. exact
  arithmetic.  C70 and C71 are about arithmetic with rounding.
* **Loops** are structural recursions; `while` loops take fuel and come with a
  theorem that enough fuel exists.
* **User code** (input callbacks, `Function` bodies, ...) is a parameter: any
  function of time, values and block memory, which may throw.
* **Hash order.** Iteration order of `std::unordered_*` is an arbitrary
  permutation parameter.

## 2. Properties, what is modelled and how it is proved

`properties.jsonl` has the English statements.

| id | plan |
|---|---|
| C01 | `emend` over byte lists; direct induction |
| C02 | `full_name` by recursion over the parent chain; splitting at '/' is a left inverse |
| C03 | `at` by recursion over the string; spec `resolve : List Label → Signal → Option Signal` over split components; equality |
| C04 | decimal printing injective (`Nat.digits`), first-match lookup |
| C05 | **false of the code** (nested miss throws, dotted path through a value signal is a bad `static_cast`): refuted by witnesses; `_partial` for labels without a dot and for labels that resolve |
| C06 | constructor as a map over the list |
| C07 | bus constructions as a fold over a name store; invariant over histories |
| C08 | refinement of every history to `Option Val` |
| C09 | relational proof over the whole simulator: `dbg = true` ok ⇒ `dbg = false` gives identical outcome |
| C10 | case analysis on signal types; lifted to all `connect`s |
| C11 | invariant by induction over construction operations |
| C12 | **false** (`set_parent` has no cycle check): witness; `_partial` for hierarchies in which every block is given its parent at construction |
| C13 | mutual induction over trees against a list-based pre-order spec |
| C14 | `connect` as a state transformer with error state; fold invariant |
| C15–C17, C23 | induction over the tree; ghost execution log; count measure for termination |
| C18 | diamond lemma for ready blocks + uniqueness of maximal schedules; both tree evaluations are maximal schedules |
| C19 | reuse-order loop is a maximal schedule; permutation invariant over evaluations. **UB finding**: `reuse_order` without state variables dereferences null |
| C20 | accepted order is a schedule; static assignment pattern makes it valid at all times. `TriggeredIntegrator` finding: the ordering pass activates blocks |
| C21 | induction on rank / induction on schedule |
| C22 | invariant: outputs of unprocessed blocks are unassigned |
| C24 | views after reset; evaluation congruence w.r.t. assigned values |
| C25–C26 | direct, plus **finding** for C26: no check without state variables |
| C27–C29 | loop invariant with arbitrary stepper; C28 **false** for the first trial of each `run` (refuted, `_partial`); C29 by Archimedean measure for halving steppers |
| C30 | pack/unpack inverse on lists; equivariance |
| C31 | the course of a diagram is specified by its equations (`Spec/Evolve`); every accepted step is shown to be a step of the stepper's formula for the right-hand side those equations define (`StepProg.By`) |
| C32–C33 | frame lemmas of minor evaluations; C33 **false** with `TriggeredIntegrator` (refuted) and proved otherwise |
| C34 | **false** (bookkeeping vectors are appended to): refuted |
| C35–C37, C40 | trace induction over runs; C40's repeated-time clause **false** (`_y = _x`) |
| C38–C39 | record list with strictly increasing times; C39 **false** at the lifespan boundary, `_partial` with a sampling-gap condition |
| C41 | evaluation of each activation function |
| C42–C43 | induction over bus trees; lookups by C03 |
| C44–C47 | tableau form of each stepper, order conditions by `norm_num`, naturality w.r.t. linear maps |
| C48–C51 | refinement of History to a finite map from index to row; **findings**: growth 0, `untrack` of an untracked signal, export before `shrink_to_fit` |
| C52 | ghost log of callbacks |
| C53 | **false** after an accepted intermediate sub-step; proved when no sub-step was accepted |
| C54 | simulation relation between machines that differ in leftover flags; **false** for FastSimulator (rejects diagrams with marked leaves) |
| C55 | equations as relations (`Spec/Equations`); invariant of an evaluation: processed blocks satisfy theirs; uniqueness by rank |
| C56 | types as invariant of all calls, also failing ones; **false** for a Delay after a failed call, NaN delays, run(NaN), arrays of different sizes |
| C57 | total correctness: Hoare triples with an exception-free postcondition on top of C56, progress by rank, the step loop by C29 |
| C58 | inversion of `connect` for every class; **false** for functions that reach into nested buses |
| C59 | C58 turns hypotheses about objects and buses into those of C57 |
| C60 | C55 along a sequence of calls; the derivative vector exists (C57) and is unique (induction along the order of processing) |
| C61 | C60, error of one step of any explicit Runge–Kutta method along the solution, also over jumps of its derivative, discrete Gronwall inequality |
| C62 | **false**; Hoare logic for calls that change no blocks, the blocks a call can reach as closures of parent and child links |
| C63 | the traceback as invariant of all outcomes; routes by induction on the depth of the recursion |
| C64 | counts as invariant with a list of pointers in transit; **false** for cycles of derivatives, which are found by the pigeonhole principle |
| C65 | calls through pointers and on trees in lockstep, by induction over the tree |
| C66 | what `connect` makes of each block (C58), the equations of the model are those of the drawing; every signal depends on the states now and at the recorded times in a locally Lipschitz way (induction along the order of processing); the steps and what delays store are those of C69; error of one step as in C61 |
| C67 | the loop of `run` and `update` splits into C66 for every prefix of the times and the updates of C48, C51 |
| C68 | errors of the stages expanded in the eight elementary terms up to order four along the solution; the drawing is linearised signal by signal |
| C69 | the last evaluation of `init` and of a `run` without states commits the members (`Verif/Proof/Settle.lean`); runs with states by C31; induction over the times |
| C70 | the parts of C59, C60, C69 that need no laws; the loop of `run` with Rkf45 in arithmetic with rounding: step sizes shrink by at least a quarter when rejected, accepted steps go forward; the rounding of IEEE 754 is monotone and idempotent |
| C71 | every operation, number and function of the program errs by at most `ρ`; along any sequence of arithmetics and steps that tend to the exact ones the stages of a step tend to those of the exact step, with a rate; compactness makes the constants depend on the drawing alone; errors of the steps add up as in C68 |
| C72 | `connect` makes the same leaf of a block whatever has been connected before; the state vector of the part is a selection of the components of that of the whole, with which the steps commute; so a passage of the whole is one of the part, and there is only one (C69) |
| C73 | maximality (C17) and the invariants of evaluations; a finite relation without cycles has an end, which lacks a signal nothing drives |
| C74 | as C72, with solutions of one set of equations turned into solutions of another; members of exchanged blocks never change; one passage only (C69) |
| C75 | families of passages (C69) of one diagram; the relation of each signal is a subspace of `I → F`, kept by every block (`Leaf.Linear`, `Verif/Spec/Linear.lean`) and by the steppers; exact arithmetic, Euler and Rk4; refuted for Rkf45 |
| C76 | `Adapts` and `Paces` (`Verif/Spec/Pace.lean`): the rules of the step size control as inductive relations over the right-hand side of the diagram, with all trial steps; `run` follows them by induction over its loop (`Proof/Pace.lean`); families of simulations as in C75, the error estimates having equal absolute values (`Proof/Tempo.lean`) |
| C77 | `Weighs` and `Config.Lumps` (`Verif/Spec/Lump.lean`): weighted sums of components of signals, and that they obey a differential equation of their own by the equations of the blocks; a linear map of the state turns every stage of a step into the stage for the sums (`Proof/Lump.lean`) |
| C78 | `Adapts` and `Paces` of C76 in any arithmetic, `Rounding` and `binary` of C70; one order of the state vector is turned into the other stage by stage (`Proof/Repeat.lean`), and the course is unique |
| C79 | `Leaf.begun`, `Leaf.noted`, `Stage`, `Attempt`, `Closes`, `Resets`, `ResetsTo`: the course of a diagram with members that change within steps; the model is followed evaluation by evaluation, and the course is unique |
| C80 | `Lens`, `Leaf.Views`, `Leaf.Holds`, `Config.Found`: a diagram found in another one, signal by signal or coefficient by coefficient; solutions and courses of the other become those of the first, which are unique |
| C81 | `Make.Becomes`: which buses suit an object and which entries it then uses, one clause per class, with `FirstWith` and `Reaches` for labels |
| C82 | `Hosts`: the arithmetic computes with rounding as long as results are in a range, nothing is said beyond; `Passes` and `Tiles` as for C70 |
| C83 | `Reading.table`: split at line feeds and commas; `readNum`: the value of a decimal number with sign, point and exponent; `Prints`, `Headings` |
| C84 | `Resets`, `ResetsTo` of C79 in rounded and extended arithmetic; `Meets`: accepted steps that go from each time to the next |
| C85 | `Timed`: a signal that is a function of time in every solution of the equations; `OnChord`: points of chords of a function; bounds on derivatives and delayed values in ℝ |
| C86 | `Ext.near`: the filter of the numbers near a value; `Limit`: limits of functions of numbers near the operands; `rounded`. The model of `double` with overflow (`Arith.extended`) is checked against it for ℝ |
| C87 | `Method.rule`, `Method.Sums`, `leftSum`, `simpsonSum`: rules for integrals. The steps of C69's passage are followed for one state; the error of Simpson's rule is proved in `Proof/Simpson`. Finding: a `Derivative` shows its input instead of a derivative at the beginning of each step (derivative.hpp:42-49), so an `Integrator` of it drifts |
| C88 | `Method.Through`, `Method.Grows`: products over the accepted steps; `Method.factor`, `Method.energy`: the polynomials of decay and oscillation; `Proportional`: one signal is a multiple of another. Several states are followed together (`C88_states`) |
| C89 | `Reading.readAny`: the words for infinities and not-a-numbers, or a number; `Reading.Displays` |
| C90 | `Recurs`: the inputs of some Memory blocks are a function of the time and of their outputs; `after`: that function applied again and again; `Clocked`: a signal is a function of time |
| C91 | `SpringDamper`: two states, the derivative of the first is the second, that of the second `u - k x - c v`; `vigour`: a quadratic form in the distance from rest and the speed; `Method.damped`: a polynomial for each method; `Method.Calm`: small gaps |
| C92 | `Leaf.Still`: what a block needs so that nothing moves, kind by kind; `Config.Rests`, `Sketch.Rests`: values of all signals with which nothing moves; `Val.Rounded`: numbers of the arithmetic |
| C93 | `Config.states`, `Config.slopes`: outputs and inputs of the Integrators, number by number; `Bulging`: convex; `Config.Stays`: a step of length `g` along the slopes ends in the set; `Between`: bounds |
| C94 | `Nearby`: differences number by number; `Config.Lipschitz`, `Config.Closing`: what is asked of the diagram; `Method.spread`: the product of the factors of the method for `x' = L x` |
| C95 | `Departs`: how much the slopes of two diagrams differ; `Under`, `Trails`: order of the states of two diagrams |
| C96 | `Config.Keeps`: sets that computed steps do not leave; `Exactly`: states that can be represented |
| C97 | `Sketch.Slope`: Integrators of a drawing; `Sketch.Alike`: how much the equations of two drawings differ |
| C98 | `Leaf.Recurs`: the user's functions have the period `c`; `rounds`: the same times again and again, each time `c` later |
| C99 | `Forgets`: a step of length `g` along the derivatives brings the states of two diagrams nearer, but for `g ε`; `faded`: the product of `1 - μ h` over the gaps |
| C100 | `Config.Pursues`, `Sketch.Pursues`: a step of length `g` along the derivatives brings the states nearer to the target `r t`, but for `g ε` |
| C101 | `inUnits`: the states in other units; `Converts`, `Sketch.Converts`: if the states agree in other units, so do the slopes |

## 3. Files

`Verif/Model` is the model (sections 1 and 5), `Verif/Spec` the vocabulary the
properties are stated in, `Verif/Props/Cnn.lean` the theorems of property Cnn with
their examples, `Verif/Proof` lemmas.  Nothing in `Proof` is needed to read a
statement.  The modules in `Spec`:

| module | contents | used by |
|---|---|---|
| `BusPath`, `BusLeaves` | components of dotted labels, the signal a path leads to; the value signals of a bus | C03–C06, C42, C43 |
| `Wiring`, `FastOrder` | static conditions on diagrams, schedules, ranks | C15–C24 |
| `Cells` | a signal can be read or assigned | C35, C41, … |
| `Reach`, `Simulated` | states any program can bring about; error-free simulations | C15, C18–C26, C30, C35 |
| `Calls`, `Steps`, `Parts`, `Retry` | event logs of calls, trial and accepted steps, failed calls | C27, C28, C33, C37, C52, C53 |
| `Drivers`, `Variant`, `Quiet`, `Integ`, `Trigger` | one driver per signal; diagrams that differ in order, nesting or simulator; blocks that change only in `post_step`; owners of state variables; triggers | C18–C20, C22, C30–C33, C36, C37 |
| `Pack`, `RungeKutta` | state vectors; tableaux, steps and order conditions | C30, C44–C47 |
| `Equations`, `Evolve` | the equation of each block; the course of a diagram in time | C31, C55 |
| `Recorder` | what a History should contain | C48–C51 |
| `Typed`, `Total`, `Build`, `Sealed` | types of ports; complete diagrams; connected diagrams; closed diagrams | C56–C59 |
| `Trajectory` | iterating a step formula; sequences of calls of `run` | C60, C61 |
| `Lifetime`, `Traceback` | what a call touches, programs that destroy blocks; entries of the traceback | C62, C63 |
| `Ownership` | pointers between signals, access from handles | C64 |
| `Mirror` | when calls through pointers and calls on trees have the same effect | C65 |
| `Sketch` | drawings of scalar diagrams, functions of time that satisfy them, programs that build them | C66 |
| `Session` | the main program of the samples: `track`, the loop of `run` and `update`, `shrink_to_fit` | C67 |
| `Smooth` | drawings whose sources and user functions have four continuous derivatives along the functions of time | C68 |
| `Passage` | the course of a diagram with memory through a list of times | C69 |
| `Rounding` | times that follow each other in arithmetic without laws; what is assumed of rounding | C70 |
| `Accuracy` | arithmetic and drawings that differ from the exact ones by at most `ρ` | C71 |
| `Demo` | a small diagram with feedback for the examples | |
| `Reset` | the course of a diagram with triggered integrators | C79 |
| `Slice` | diagrams found in others coefficient by coefficient | C80 |
| `Accept` | accepted calls of `connect` | C81 |
| `Extended` | the loop of `run` with values that are no numbers; `Ext` is an arithmetic with overflow, infinities and one not-a-number (and one zero) | C82 |
| `Text` | the text `export_csv` writes: headings, separators, numbers as by `operator<<` with default settings (six digits, `%g`) | C83 |
| `Special` | the texts of infinities, not-a-numbers and zeros with signs (`Writes`), and with them the files `export_csv` writes | C89 |

## 4. Findings

Properties that the source does not have.  Each has a theorem `_refuted` (or one
named in `MANIFEST.json`) with a concrete witness, and a `_partial` theorem with
the condition under which the property does hold.

| id | what happens |
|---|---|
| C05 | `Bus::try_at("a.b")` throws if `a` exists and `a.b` does not; if `a` is a value signal it is cast to a bus |
| C10 | release: Add/Multiply accept inputs of any type |
| C12 | `set_parent` can close a cycle; `full_name` then does not return |
| C19 | `Simulator(reuse_order)` dereferences null for models without state variables; with a BusBlockBuilder in the model it fails |
| C20 | the ordering pass of `FastSimulator::init` runs activation functions, which can set the trigger of a TriggeredIntegrator |
| C22 | an empty array as state variable: assigned, then assigned again by `pre_step` |
| C26 | models without state variables: `run` goes back in time |
| C28 | the first trial step of a `run` ignores the maximum |
| C32, C33, C37 | TriggeredIntegrator: repeated steps apply the reset; rejected trials are not undone; a trigger can reset twice |
| C34 | second `init`: state variables are listed twice, next `run` writes out of bounds |
| C38 | time NaN: Delay reads out of bounds |
| C39 | Delay forgets the record it needs if delay + sampling gap > lifespan |
| C40 | Derivative evaluated again at the time of the last step outputs its input (`_y = _x`) |
| C49–C51 | growth 0, `shrink_to_fit` before the first update, `untrack` of an untracked signal, `track` while recording, export without `shrink_to_fit` |
| C53 | a run that throws after an accepted sub-step, or in a `post_step`, leaves integrators/blocks ahead of the time |
| C54 | FastSimulator rejects a diagram another simulator has processed |
| C56 | Delay after a failed call, NaN delay, `run(NaN)`, sums of arrays of different sizes (release: undefined behaviour) |
| C57 | a repeated step fails in debug builds if there is a Delay |
| C58 | functions that look up `"b.x"` in a nested bus are not linked to it and can run before it is assigned |
| C62 | a submodel keeps the pointers to destroyed children, and children that to a destroyed parent; processing (or, in debug builds, mentioning the name) follows them |
| C64 | signals whose derivatives form a cycle (x' = x) are never destroyed; a failed `reset` leaves a handle half null |
| C82 | a Delay with a delay that is not a number reads beyond the end of its record; Rkf45 accepts steps whose error estimate is not a number |
| C83 | `export_csv` writes numbers with six digits, so times that differ can be written alike |

Not a property, but seen on the way: with Rkf45 and a smallest step below the resolution of the times, `run` may
never return (`C70_endless`).  `tests/test_delay.cpp` relies on the rounding
of the accumulated time; in exact arithmetic its last sample is one step later.

## 5. Trusted base

*Kernel and axioms.*  Lean 4.33.0's kernel.  No axioms beyond `propext`,
`Classical.choice` and `Quot.sound`; `AXIOMS.md` lists them per theorem.  Examples
and witnesses on concrete diagrams use `decide +kernel`.

*Reading of the source.*  The model was written from the text of `/repo`; nothing
was run.  `Verif/Check` replays the repository's own unit tests in the model.

*Modelled*: the files of the table in section 1, in debug and release builds, with
exceptions and the undefined behaviour listed in `Err`.

*Not modelled*:

* `src/helper`: plotting.  The text written by `export_csv` is modelled (C83, C89); locales and failures of the file system are not.
* `InitialValue` blocks: `initial_value.hpp` assigns `nullptr` to a `Bus`, so the template cannot be instantiated.
* Lifetimes of blocks and signals outside `Lifetime.lean` and `Ownership.lean`; threads, memory exhaustion.
* Inside `Lifetime.lean`: blocks a `BusBlockBuilder` owns, reuse of the address of a destroyed block, what leaf classes do when processed.
* Rounding: exact arithmetic where theorems need laws, except in C70, C78, C92 and C96 (rounding without overflow), C82 and C84 (with overflow, infinities and not-a-numbers; `+0` and `-0` are one number) and C71 (operations with bounded errors), any arithmetic otherwise.  `int` is unbounded, its overflow an `Err.ub`
  where values are computed (`Gain<int>`, …).
* `uint` counters are unbounded except in `History` (32 bits).
* The compiler, Eigen and the standard library: specified by the operations used.

*Simplified*, where the definitions say so:

* A second `init` of a `reuse_order` simulator in release builds replaces the remembered order instead of appending to it.
* The input callback assigns signals as a function of time and does not read the diagram.
* Capacity checks of internal vectors (`Engine.lean`) and the row check in array getters are omitted, as they cannot fail.
* Lookups of signals in buses by user functions are made once, not in each activation (`Build.lean`).
