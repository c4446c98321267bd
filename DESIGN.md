# Formal model of kiter (Lean 4)

Source: `/repo` (bbodin/kiter, C++). Model: `/verif/lean/Verif`. Properties: `properties.jsonl`.
Claim status: `MANIFEST.json`. Mutation tests: `seeded/LOG.jsonl`.

## Conventions of the model

* `long int` types (`TOKEN_UNIT`, `EXEC_COUNT`, `PHASE_INDEX`, `ARRAY_INDEX`) are modelled by unbounded `Int`
  (or `Nat` when the code only ever stores non-negative values). Machine overflow is **not** modelled, except for C110 and C119.
* `TIME_UNIT` (`long double`) is modelled by exact rationals `Rat`. Rounding is **not** modelled, except for the quotients of C119.
  Where the code compares with an epsilon the comment at the definition says so.
* `VERBOSE_ASSERT` / `FAILED` (which throw or exit) are modelled by `none`: "the call does not return a value".
  Undefined behaviour (division by zero, reading outside a container) is also `none`, never a default value.
* C integer division/remainder is `Int.tdiv` / `Int.tmod`; `std::gcd` is `Int.gcd`.
* Containers: `std::vector`, `std::list` -> `List`; `std::map` -> association list or function, as said at the definition;
  boost graph -> list of vertices and list of edges in iteration order.
* Loops without a syntactic bound are written with a fuel argument or by well-founded recursion;
  with fuel, running out is a separate outcome and termination is a theorem.

## Layout

Each area has a model file (`Verif/Model/*.lean`, definitions with citations), lemma files
(`Verif/Lemmas/*.lean`) and a property file (`Verif/Props/*.lean`) that contains only
specification definitions, the property theorems and the examples showing that the hypotheses are met.

## Plan per property

| id | model | proof |
|----|-------|-------|
| C01 C02 C03 C04 | `Fraction` operations with `Int.tdiv`, failure as `none`; comparison loop by well-founded recursion on the denominators | value in `Rat`, invariants of the loop (continued fractions), witnesses for negative denominators |
| C05 | `extended_euclide` loop | loop invariant (Bezout coefficients), termination by remainder |
| C06 C46 | token-level and character-level model of `split`, `splitSDF3List`, `StringRate2Vectors`, `vectorAsStr` | round trip by induction over lists |
| C07 | association list registry | induction over histories |
| C08 C09 C10 C11 C56 | record `State` with vertex/edge tables, flags and gcd cache; each API call a function `Graph -> Option Graph` | invariant by induction over call histories; witness for the stale cache |
| C12 C13 C14 | DFS of `calcFractionsConnectedActors` over a list graph, then `calcRepetitionVector` | DFS invariant (visited fractions satisfy balance), gcd/lcm arithmetic |
| C15 C16 C17 | `generateKPeriodicConstraint` as list of constraints over cumulative rates | number theory: floor/ceil multiples of gcd, Bezout for existence of execution pairs; infinite schedule specification written independently |
| C18 C50 | `generateKperiodicSelfloop`, `period2scheduling` | telescoping over execution index |
| C19 C20 | `updateVectorWithLocalNi`, K-Iter loop with an oracle | lcm/divisibility, well-founded measure |
| C52 C53 | K-Iter loop with the solver as parameter; schedules of any shape as specification | circuit weights bound every schedule (walks shifted through executions); incremental update as set equality |
| C21 | Bellman-Ford rounds of `computeStartingTimeWithOmega` | longest walk invariant, pigeonhole for simple paths |
| C22 C23 C24 C25 C26 | `Actor`/`State` step functions, executions as arbitrary op sequences | invariants by induction, determinism of iterate |
| C27 - C34 | `StorageDistribution(Set)`, sat/unsat/knee sets | invariants by induction over insertions |
| C54 C55 | dse.cpp loop over checklist and result sets, analysis as parameter | loop invariant (frontier below every unexplored lattice point, result covers explored points); finite box for termination |
| C35 | `produce_sequence`, `get_next_execution_time` | list index lemmas |
| C36 C37 | `findEventCycle`, `getDistance` | modular arithmetic, witness for rectangular mesh |
| C38 C39 C40 C57 | mesh generator, neighbour lookups, XY routing | arithmetic on coordinates, induction on distance |
| C41 C42 C63 | graph transformations as sequences of calls on the `State` of C08 | effect lemma per call; induction over route / measure; loop invariant |
| C43 C44 | Kosaraju with recursive DFS | finishing order argument |
| C45 | `Model/RandomGenerator.lean`: the generator over an arbitrary sequence of draws, with the calls of `Dataflow` it makes | explicit result of every call; sorted sections telescope; the product of the weights solves the balance equations; C14 gives the repetition vector |
| C65 | Howard's policy iteration as written, over ℚ, machine epsilon and largest float as parameters; fuel for the unbounded loops | invariants of the policy graph give termination; a settled policy is a potential that certifies all circuits up to the tolerance; on a grid the tolerance disappears; composed with C52 |
| C66 | machine of C22-C26, start and end steps of each execution; schedules as functions from executions to times | induction on steps: an execution that has not started cannot start earlier in a causal schedule, because the first one that did would be ready |
| C67 | as C66, plus the long-run behaviour of C26 | the earliest schedule bounds all others from above; uniqueness of the least sustainable period gives agreement with C52 |
| C68 | as C66 | executions keep ending unless deadlocked; actors stay within a bounded distance; durations lie on a grid, so states are finite up to elapsed time; two equal records give two equal consecutive records |
| C69 | Model/AsapThroughput.lean: `compute_asap_throughput` with `generateSCCs`, on top of the models of the repetition vector, of Kosaraju's algorithm and of the self-timed execution | a schedule of the graph restricts to the components, which bounds the result; conversely the self-timed schedules of the components follow their throughput from both sides, are stretched to the slowest one and delayed along the order of the components (Lemmas/Compose.lean) |
| C70 | Model/BufferExploration.lean: feedback channels, `compute_Kperiodic_throughput_and_cycles`, the settings of the exploration; Spec/Buffers.lean: schedules with bounded capacities | instantiate C54/C55: the critical circuit of a distribution stays a circuit when no critical channel grows, rounding to steps loses no schedule, a paced schedule fits in large enough buffers |
| C71 | Spec/Buffers.lean | a schedule for smaller capacities is one for larger capacities |
| C72 | as C70 with one phase per task | Bezout argument: with less than p + c - gcd (+ t mod gcd) tokens of room, some firing count blocks both tasks |
| C73 | rows and columns of the linear program, the loops that read the sizes back (Model/PeriodicSizing.lean) | rows say: SizePair for each pair of phases; by periodicity these give NeverShort for the channel and for its free places; rounding only enlarges |
| C74 | as C73; a periodic schedule gives an assignment | necessity of each row; columns of the places: the floor of the quotient |
| C75 | as C73, objective of the program | an integer solution is read back without rounding, so the total is the objective plus the initial tokens; any bounded periodic schedule gives an integer solution with its own memory |
| C76 | result of the function for the answer of a correct solver | by cases; counterexample with an impossible period |
| C77 | compute_periodic_fixed_memory: rows for start + offset (Model/PeriodicSizing) | start of a phase = one column + offset; the pair inequalities of C73-C75 are reused with these starts (Props/FixedOffsets) |
| C78 | the five offset generators and the check (Model/FixedOffsets) | sums of durations along each loop; retiming of Wiggers keeps every phase above its burst start; min-max rows have a solution built from burst starts and large slack (Lemmas/FixedOffsets, Props/FixedOffsets, Props/StrictSizing) |
| C79 | compute_fixed_offset_buffer_sizing | C78 + C77 |
| C80 | add_vbuffers | the graph built is the bounded graph of the exploration; C77 and monotonicity in the capacities |
| C81 | speriodic_memory_sizing_csdf | partial: C78 under the assumption on single-phase tasks; witness of the violation with an explicit optimal solution |
| C82 | Model/FixedK.lean: constant and N vectors, KSchedule | a circuit bounds every K-periodic period; starting times attain it; unrolling shows monotonicity; with multiples of the repetition counts every circuit runs in whole blocks, so the bound holds for all schedules |
| C83 | `Model/PeriodicLP.lean`: rows and columns of the three programs, collection of the result | each precedence row is the event-graph constraint of the same pair (`floor(x-1) = floor(x-gcd)` by divisibility), task rows are the self-loop constraints; shift to non-negative starts; least periods through C82 and C49; counterexample for the collected schedule |
| C84 | normalization.cpp whole file on the graphs of C12 (coefficients as ℚ) | invariant of the search: coefficients around a finished task agree and keep the rates integer; balance solution propagates along the border; any other normalization is an integer multiple of the coefficients found so far |
| C85 | the SDF3 writer and reader on trees of elements, over the text layer | the document is computed; each of the four passes of the reader is a fold with an explicit state; ports are found because identifiers are distinct |
| C86 | the abstract dependency graph, its two cycle detections, the recording of dependencies in the deadlock and in the replay of a period, on the machine of C24-C26 | the replay follows the machine without detection from the recurrent state; each start in a period has a recorded cause unless it is at the first instant; a terminal component of the dependency graph cannot go faster with the same rooms; deadlock: the component never starts again |
| C87 | the exploration loop of C54-C55 with the analysis of C86 and the target of C69 | C86 gives the completeness of the critical channels which C54 needs; the target is reached with finite buffers because a schedule of bounded lag exists (C69); sizes between two steps allow the same schedules |
| C88 | `createPoint`, `select`, the two loops of the knee-point search, the raised knees, the exploration from the checklist and the last step of the exploration (Model/KneeSearch) | invariants: every recorded infeasible point misses the target, so a knee lies below everything that reaches it; a point is new in every round of the second loop (with one repetition), so it ends; with an edge not considered the only finite knee is one below the initial quantities; then the invariant of C54 from the checklist |
| C89 | `spSchedule`: event graph, solver (parameter, or the modelled Howard solver), starting times, one entry per task, critical channels by id | validity by C49 and C21; least period by C49; earliest starts by C21; no schedule for answers ≤ 0; critical channels with a counterexample for equal ids |
| C90 | `Chart.drawLine`: the drawing loops of `asASCIINewNew`, text as lists of characters, `std::string(x, c)` truncating and undefined below 0 | invariant: the text drawn so far is the specified columns of an interval; columns are periodic; counterexample for fractional periods |
| C91 | `Sim.Logger`: the self-timed machine with the recorded starts, `periodic_state_idx`, `actors_check`; `taskEntry`; `asapSchedule` over the components | invariant `Logged` relating the vectors to the steps of the free run; every start by C68's shift of runs; cut and counts by the cycle equations; termination by C68; counterexamples for the cut and for several components |
| C92 | `kpScheduling`: the K-Iter loop with the critical channels, then `period2scheduling` for the final vector; `oneScheduling`: starting times of the events put in the entries of their tasks | the loop is that of the throughput computation; validity, pace and earliest starts by C50 and C21; least period by C52 and C82; counterexample for the sign of the period |
| C93 | `Freq.step`, `Freq.run`, `Freq.explore`: the queue of intervals of throughputs, the map of explored ones, the second loop and what is printed, for any sizing function | interval widths are F/2^k, so at most 32767 turns; invariant that every throughput lies in a queued or a settled interval; least memory is monotone in the period by slowing schedules down, with C73-C75 for the sizing and C82 for F |
| C94 | `symbolicExecution`: turns of the loop over the tasks, `none` while it has not ended | invariant: the state is that after an admissible sequence of executions; a task can execute as long as some sequence completes the iterations; an iteration repeated for ever is a schedule, and a blocked task of least start contradicts a schedule; counterexamples for deadlock and phases |
| C95 | `packetTrace`: the same loop with the printed lines; a loop over packets that does not end is `none` | invariant relating lines, last computation of each task and last packet of each channel to the executions made |
| C96 | `BackPressure`: the steps of the command up to the sizes; the linear program is its rows, its solution any `Solution` | the strictly periodic schedule of the solution: a generic lemma on strictly periodic producers and consumers, used for the channel and for its room; counterexamples for tokens, for units, for phases |
| C97 | `cycleCount`: the rounds, the components (C43), the recursive search with `blocked_set` and `blocked_map` | invariant of the search: tasks on the stack are blocked, other blocked tasks lead only to blocked tasks, for which they wait; what is blocked at a call is blocked after it; so the paths found from a task are exactly those that complete the stack to a simple cycle |
| C98 | `fullConnected`: the passes over the events, on the graph of C48 | each event either keeps the list or removes at least one constraint; an event without constraint on one side is on no circuit; the number of constraints bounds the passes |
| C99 | `findPathDijkstra`, `findLowContentionPath`, `getPath` with the bounds of the utilisation table, on the network of C38 | invariant of the exploration: visited nodes have the least costs, costs and predecessors agree, examined links are tight; after as many turns as nodes all reachable ones are visited; the depth-first search enumerates the simple paths of bounded length |
| C100 | the event graph and K-Iter loop of C05/C52 on graphs with reentrancy factor 0; `remove_reentrancy` | every circuit of the event graph is a lower bound of the period of ordered schedules, for any reentrancy; equality when the lost wrap-around circuit is implied (K·phases = 1); a three task graph where K-Iter reports 1 and no schedule is faster than 2/3 |
| C101 | K-Iter as in C52, on two graphs related by an edit | schedules of one graph are turned into schedules of the other (same starts, scaled starts), so the sets of periods compare; C52 says the throughput is the least period's inverse |
| C102 | the loop over periodicity vectors of BufferlessKPeriodicScheduling with its two options, and the printed schedule | invariant: the value is the best for the current vector; end criterion as in C52; rank argument of C20 for termination; counterexamples for the options |
| C103 | the solver object: rows, columns, coefficients, numbering, generateGLPKProblem into a model of a GLPK problem, solve with an abstract GLPK, reading of values | invariant of the calls (numbers are positions, names are distinct, entries correspond to coefficients); transfer of solutions and optima through the numbering; counterexamples |
| C104 | no new definitions: the models of the commands of C14, C49, C82, C83, C98, C101, C102 and of the self-timed execution | every exact command reports the least sustainable period, which is unique; positive answers of periodic commands are sustainable periods; the assumed solvers exist (exhaustive search; least elements of the sets of periods) |
| C105 | no new definitions: event graphs, commands of C104 | start times of the components are put together, later components delayed by enough for all constraints between components; busy times by adding up durations along an execution; tasks alone run back to back |
| C106 | generators/LTEGeneator.cpp | vertices and edges by induction over the layers, repetition vector by C12-C14 and connectedness, throughput by C105 (ids grow along channels) |
| C107 | generate_kiter (printers/stdout.cpp) as the list of printed statements, run on the model of Dataflow (C08-C11) | induction over tasks, then channels, with the exact state after each statement; the missing return and unordered ids are counterexamples |
| C108 | remove_task (bug_explorer.cpp) on the model of Dataflow | removal of one task as a filter of tasks and of channels seen through their end tasks, then induction over the lists |
| C109 | createNoC, randomMapping, moduloMapping, xyRouting over whole graphs | square root bounds; C39 for each channel |
| C110 | `Model/RepetitionMachine.lean`: the same program as `Model/Repetition.lean` with every `long` operation checked (overflow is `none`) and the `int` accumulation of the rates wrapped to 32 bits | `C110_no_overflow`: every fraction met is a ratio of two entries of the coprime solution, hence bounded by the result; `C110_inconsistent`: fractions bounded by a power of the rates; `C110_agrees`: refinement; two counterexamples |
| C111 | `Model/FileThroughput.lean`: reader, repetition vector and K-Iter in sequence; `Spec/FileThroughput.lean`: schedules of the graph of the file by position of the tasks | `C111_file_throughput`, `C111_answers`: the graph that the analysis reads is in `BaseOK` (C12-C14) and has the same schedules (`FileT.periods`), then C52 and C20; `C111_saved_graph` adds the round trip C85; `C111_reentrant_partial` uses C100 |
| C112 | `Model/Placement.lean`: the loop of `taskAndNoCMapping` with any choice from the queue, `dijkstra_mapping`, the recording of the nodes and routes with its assertions, the size of the mesh | `C112_map_and_route`: an invariant on cores, routes and table, for any order, with C99 for each route; `C112_no_abort`: no task is left and no assertion fails after the placement; `C112_returns_partial`: it completes with a table that has an entry for each link; counterexamples with the table of the code (`C112_out_of_bounds`), with edges with the same ends, lone tasks and self-loops |
| C113 | `Model/CircuitCut.lean`: the depth-first searches (one recursion with what is done on entering, on a marked vertex, on leaving), the enumeration of circuits, `removeCycleEdges`; `Model/TaskOrder.lean`: `generate_task_order` and the whole command | `dfs_visits`: what a search marks and in which order it ends the vertices; `C113_circuits`: the lengths kept for a vertex are those of the circuits it leads to (independent of the order of the stack); `C113_order`: the channels kept go against the order of ending, so no circuit is left; `C113_task_order`, `C113_task_order_iff` by C94; `C113_command`, `C113_command_partial` with C112 |
| C114 | `Model/Expansion.lean`: the periodicity vector, the three kinds of constraints, the generation | the constraints inside a task by induction on executions; a channel by Bezout: the precedences of a pair of executions are one inequality, whose offset is compared with the generated one; counterexamples for the sign of the shift |
| C115 | `Model/Conflict.lean`: extended Euclid, the test on two starts, the search over links, pairs and starts | induction for Euclid; Bezout with non-negative coefficients for the test; the loops by a lemma on searches |
| C116 | `Model/Overlaps.lean`: the use of router crossbars and the bags, over the group list of C51 | the entries of a router are its transfers; then the groups of C51 |
| C117 | `Model/Tarjan.lean`: the recursion with numbers, low links and the stack, the pop loop, the assignment of events and constraints | the invariant of Tarjan's algorithm (older reaches newer on the stack, every stacked vertex reaches a running call, closed vertices stay closed) by induction on the depth of calls and on the successors |
| C118 | `Model/SoftwareNoC.lean`: `addPathNode`, `resolveSrcConflicts` and `removeAllEdgesVertex` as sequences of calls of the modelled graph interface | effects of each call on the lists of tasks and channels; induction over the route and over the outputs; the balance equations before and after |
| C119 | `Model/KPeriodicMachine.lean`: the generator with every `long` operation checked, totals in `int`, the quotient of `commons::floor` rounded to p bits | a bound on the tokens still to be moved as loop invariant; distance of a quotient of integers to the next integer against the rounding error |
| C120 | `Model/So4.lean`: the loop with the tokens on their way, arrival dates, the conversion of the date to `int`; one pass of the loop is a total function | an invariant that says which executions of the producer of each channel have been delivered and when each of the others arrives; by induction on the passes |
| C121 | `Model/So4.lean`: both kinds of tables, given as the numbers read | first rule of a key, greatest slot |
| C122 | the models of C70 and C87, of the same graph | both evaluate the same function of the sizes (C36, C86), and both searches are complete up to the tolerance |
| C123 | `Model/ScheduleCheck.lean`: `is_valid_schedule`, the dates taken from the schedule and the pass over them | invariant of the pass (executions ended and started, tokens, order of the dates); soundness, termination and exactness for schedules of one phase per task with a single task at date 0; witnesses for each hypothesis that is dropped |
| C124 | `Model/PrintSchedule.lean`: `print_schedule`, the macro calls it writes; `Spec/PrintSchedule.lean`: what the macros draw | the records are one per event of the first pattern; the floor is the number of patterns that end by the latest date; invariant of the table of rows over the sorted list; the grid claim fails for every graph |
| C125 | `Model/SizedCommand.lean`: the debug command, `std::stol`, the loop over the pieces, the lookup by edge id | the reading inverts the writing of any list of numbers; the analysis is that of C87; refutations for text after a number, numbers out of range and ids that are not 1..n |
| C126 | `Model/DotSchedule.lean`: `PeriodicScheduling2DOT`, `add_block`, the static variable; `Spec/DotSchedule.lean`: what Graphviz shows of a node, the executions of a schedule | closed form of the loop by induction on the patterns; names by cancellation of the common prefix; refutations for names, a second scale, initial phases, short durations, empty schedules |
| C127 | `Model/NoCDraw.lean`: `GenerateNoCDOT`: use of links, palette, sprites, grouping by rounded position, offsets | invariant of the colour table over the links and channels; offsets of a group are small and different, groups are half a unit apart on a mesh; refutations for five channels, neighbours that are not mapped, isolated tasks |
| C128 | `Model/EventGraphDraw.lean`: `printXML`, `printTikz`, `printDOT` as lists of statements; `Spec/EventGraphDraw.lean`: a reader that matches braces | induction on the events with the open blocks as invariant, injectivity of the XML, arithmetic on bytes for the letters; refutations for events without constraint, ids equal modulo 256, the id 0, several phases |
| C129 | `Model/Infos.lean`: `printInfos` and its sums over the state of `Model/Dataflow.lean` | the sums by induction over the tasks, on top of C12-C14 for the repetition vector; refutations for isolated tasks, fractional durations, the empty graph |
| C130 | `Model/GraphDraw.lean`: `GenerateGraphDOT`, character by character; `Spec/GraphDraw.lean`: a reader with quoted strings, numbers and lists | the reader inverts the writer item by item, then by induction over the items; refutations for quotation marks and backslashes in names, the empty graph, and the lock left on the graph |
| C131 | `Model/AllPaths.lean`: the search with its stack and the table of lists | the search appends the simple paths of bounded length (C99's characterisation), none twice; the bound is the distance on square meshes (C39, C99); refutations for a second call and rectangular meshes |
| C132 | `Model/FrontFile.lean`: the file character by character; the format of a throughput is a parameter; `Spec/FrontFile.lean`: a reader of such files | the loop over the edges writes the list of quantities of the shown edges, the reader inverts each line; with C54 and C70, the rows are the Pareto front over all schedules; refutation: formats with finitely many texts |
| C133 | `Model/Sdf3Run.lean`: the pipe read by pieces of 127 characters, the cutting into lines and fields; the reading of a number is a parameter | the pieces give the output back; the fields of a line without blanks; refutation for all outputs in the format of SDF3 |
| C134 | `Model/TDMAStats.lean`: the loop over the packets and the last line, exact division | invariant of the loop at the ends of iterations and in the middle of one; telescoping sums; refutations for all inputs with a rest or one packet per iteration, and a replay with a negative time |
| C135 | `Model/KIterReport.lean`: the vertices added by the generation and by each update, the rows; K-Iter with its reports | refinement to the K-Iter of C20/C52; invariant of the run: the vertices are the executions of the pattern, and there are duplicates as soon as a task with two phases is raised; counting by permutation |
| C136 | `Model/RouterMerge.lean`: the starts listed for each task, the two sorted lists, the rates; the schedule is an input | the loops in closed form; filtering the sorted list by task and uniqueness of sorted permutations give the order of each task; gcd for the balance; a witness for the order in later periods |
| C137 | `Model/PeriodicCommand.lean`: the choice of the period and the printed report, over the models of C73-C79 and C82; both solvers are parameters | the periods of periodic schedules are those of at least the inverse of the 1-periodic throughput (C82, C74, slowing down), then C75 and C78; the failures by cases, for all graphs; a live circuit with a negative 1-periodic throughput as witness |
| C138 | `Model/Orphans.lean`: the graph as lists of tasks and channels, the lists of conflicts, the loop with its flag | induction on the turns: each removes one task without channel; divergence by induction for graphs without channels |
| C139 | `Model/Orphans.lean`: the two loops over the schedule, division by zero and conversion as failures | the value of the last task stays; divisibility by induction; failure for every schedule that ends with a task of the network |
| C140 | `Model/OccupancyChart.lean`: the loops over times and starts, the position in the period as computed | induction over both loops; the test in closed form; marked in the first period, never marked late |
| C141 | `Model/MergeChannels.lean`: storing, removing, the maps of rates with the identifiers as keys, the two loops that add channels | each loop in closed form by induction; the stored channels are a permutation of those of the graph at a merged task; distinct identifiers give the right entry of the map |
| C142 | `Model/Dependency.lean`: rates and initial tokens through the extended gcd; Props: starts and ends as steps | the tokens on the channels and in the running executions have a constant sum, by induction on the steps |
| C143 | `Model/RouterChannels.lean`: the loop that removes the first input and output of each router and adds two channels | each turn is a permutation of moving one router; composition by induction on the routers |
| C144 | `Model/CycleEdges.lean`: the recursive search with its marks and list, accesses out of bounds as failures | induction on the search: each output is listed, enters an unmarked task or goes to a task visited later; the order of visits forbids circuits |
| C64 | the marking loop, with the analysis as an arbitrary function and with the K-periodic analysis | invariant: same graph up to tokens and repetition counts; the missing tokens decrease; a channel on a circuit without positive ratio is on a simple such circuit, so its constraint, and with it its tokens, are bounded by numbers of the tasks |
| C47 | argument fold of `main` | induction |
| C48 | `generateLCG` over rationals (Model/DeGroote.lean) | ceiling adjunction for the indices; precedence form of "never short" for constant rates; start times of C21 for attainment; circuits shift blocks of executions for optimality |
| C49 | `generateSP`, exact and approximate (Model/StrictlyPeriodic.lean) | the pair inequalities of C15/C16 with one start per task; maximum over a group by a monotone predicate; C21 for attainment |
| C58 C59 | TDMA packet replay over tables of packets | loop invariant over the replay; well-foundedness of the dependencies |
| C60 | text of durations | character lemmas |
| C61 C62 | merging along a schedule | loop invariant over the executions listed |
| C51 | `GroupList` | induction over histories, witness for lost value |

## Findings: where the code does not do what the property says

Each is a theorem with a concrete witness.

* Fractions with a negative denominator compare unequal to equal values (`Frac.C02_neg_denominator_counterexample`).
* `extended_euclide` is wrong for negative inputs (`C05_negative_counterexample`).
* K-periodic constraints are not sufficient for tasks with reentrancy (`C15_reentrant_producer_counterexample`,
  `C15_reentrant_consumer_counterexample`).
* A `StorageDistribution` constructed with a wrong size keeps it until a quantity is written (`C27_needs_update`).
* A set ignores a second addition of the same quantities even with a larger throughput (`C28_duplicate_ignored`).
* `minimizeStorageDistributions` keeps larger and slower points when a smaller one is inserted late
  (`C29_late_small_point_counterexample`); the exploration inserts by increasing size, which avoids this.
* `addToSat` never removes a stored point, so the feasible set is not an antichain (`C31_not_antichain`).
* `findMinimumChannelSz` is not a lower bound for channels with several phases: it gives 4 for rates 3,2 / 2,3, where
  capacity 3 works (`C34_multiphase_counterexample`). The exploration then starts above the optimum.
* Symbolic execution reads the production rate of a self-edge as its consumption rate, so channel contents can be wrong
  and a deadlock can be reported for a live graph (`C22_selfloop_counterexample`, `C25_selfloop_counterexample`).
* An actor without input channel (unbounded buffers) is always ready: the loop that starts executions never ends
  (`C25_unguarded_diverges`).
* An execution at least `LONG_MAX` long is taken for a deadlock (`C24_longmax_counterexample`).
* A task with several phases and no channel gets a repetition factor that is not a multiple of its phase count, and its
  presence keeps the vector of the rest from being minimal (`C12_isolated_counterexample`, `C13_isolated_counterexample`).
* C09/`setPreload`: although `setPreload` does not reset the computed results, it asserts that the graph is writable, and
  computing the repetition vector makes the graph read-only, so initial tokens cannot be changed while the vector is available.
* C10: `setEdgeInPhases`/`setEdgeOutPhases` sum the rates with `std::accumulate(.., 0)`, an `int` accumulator: a rate of
  2147483648 gives a total of -2147483648 (`C10_overflow_counterexample`). `setPhasesQuantity` accepts a number that
  contradicts the rate vectors already stored (`C10_phases_counterexample`).
* C11: the cached granularity is never refreshed: `C11_stale_counterexample` (rates edited after a read) and
  `C11_reuse_counterexample` (channel removed, id given to a new channel).
* C56: `getVertexTotalDuration` accumulates durations in an `int`: two phases of 1/2 are reported as 0
  (`C56_fraction_counterexample`); `symbolic_execution.cpp:83` divides by this value for a task without channels.
* A call that fails after its first effect (for instance `addEdge` with a used id) leaves the new element behind; this is only
  visible in debug builds, where the failure is an exception. The model treats any failure as the end of the history.
* C39: `moduloMapping` maps tasks to router ids while both routing passes expect core ids: on a 2 by 2 mesh the route between
  two tasks so mapped runs off the end of `getRightNeighbour` (`C39_modulo_counterexample`).
* C40: `NoCGraph::clear` sizes the utilisation table `V*V`, but `getMapIndex` adds `V`, so the links leaving the last node
  (the core of the last position) index beyond its end (`C40_table_counterexample`).
* C44: a self edge is a cycle that `has_cycles` does not report (`C44_self_edge`).
* C37: `getDistance` divides by the number of rows where it should divide by the number of columns; on a 2 x 3 mesh nodes 2 and 3 are three hops apart but get 3 instead of 4 (`C37_rectangular_counterexample`).
* C06. `splitSDF3List` does not see a star at the end of an item: `2*3*` is read as `2*3` instead of being rejected (`C06_trailing_star_counterexample`).
* C46. A pair with initial rates and an empty periodic vector is written as `1,2;` and read back as the periodic vector `1,2` (`C46_empty_counterexample`). The rate reader does not reject `2*3*4`: it reads 4 (`C46_malformed_counterexample`).
* C51. `GroupList::add` on two elements of distinct existing groups merges the groups and forgets the value of the call (`C51_lost_value_counterexample`). The two users (communication modelling and contention grouping) insert values this way.
* C62. `mergeCSDFFromSchedule` chooses a period of the merged task by the proportions of the repetition factors divided by their greatest common divisor, and ignores the number of phases. Two tasks of two phases executed equally often get a period with one execution each, and a channel fed in the second phase never receives a token again (`C62_phases_counterexample`). For schedules that group several iterations of one task the search for a period can fail and end the program (`C62_no_period_counterexample`).
* `singleOutput` gives every new channel the rates 1/1 and no tokens: rates and initial tokens of the outputs are lost
  (`C63_lost_counterexample`).
* Modelling communications: a channel without route that is not virtual is rebuilt with production rate 1
  (`C41_no_route_counterexample`), and a channel of a task with several phases ends the program
  (`C41_single_phase`).
* Random generator: `max_weight` above 2^31 - 1 is accepted but the stored totals wrap (`std::accumulate` with an `int`), so the graph is then not the balanced one that was drawn. With `no_self_loop` (the default) the target is redrawn without a limit: it ends only because the draws vary (`Varied`). With one task the generator stops with an assertion, as it does for fewer than one channel only by undefined behaviour of `uniform_int_distribution(1, 0)`.
* Cycle ratio solver (C65). (a) After 100 policy iterations the solver returns the current value, logged at INFO only: `C65_iteration_limit` gives a graph on which it returns 3 although a circuit of ratio 1 exists. (b) The test for "no circuit" compares the ratio with (sum of |w|)/(smallest d): a graph whose only circuit is a single loop reaches that bound exactly, so MinCycleRatio returns infinity and an empty circuit (`C65_single_loop`); a dataflow graph with a single task of one phase has such an event graph. `C65_event_graphs` shows that two tasks are enough to exclude this. (c) `MinCycleRatio(bound)` with a bound below the smallest ratio returns the bound and an empty circuit (`C65_low_bound`). (d) Circuits of total duration zero give a division by zero, hence inf or nan.
* C69: `getVertexTotalDuration` accumulates the durations from the `int` 0, so fractional durations are truncated: a task of duration 3/2 that is a component on its own counts as one of duration 1 and `compute_asap_throughput` reports a throughput no schedule achieves (`C69_fractional_counterexample`). A graph made of one task without channel makes it loop forever (`C69_single_task_diverges`).
* `periodic_memory_sizing_csdf` returns `0` when the program has no solution (periodic.cpp:390). `BufferSizingResult` has an implicit constructor from a size that marks the result valid, so an impossible period is reported as a valid sizing of size 0 (`C76_violated`). The same holds for `BufferSizingResult(false)` of the generate-only mode (`false` converts to the size 0), and for `return 0` of the generate-only mode of the fixed-offset variant.
* `compute_csdf_1periodic_memory` and `compute_strictly_periodic_memory` assert `MIN_PERIOD <= period` before they replace the default `period == 0`, so the default period always fails the assertion.
* `periodic_memory_sizing_csdf` does not record the sizes of the single edges in its result, only the total.
* Rows and columns of the sizing program are identified by names built from edge names; edges named `x` and `feedback_x` would share names. The model identifies them by position.
* Fixed-offset sizing (C81): no generator compares the duration of the only phase of a task with its period (offset 0 without check), the
  program of `compute_periodic_fixed_memory` has no rows for the tasks, and `checkOffsets` only prints overlaps. A valid size is reported
  for periods in which a task overlaps itself (`C81_violated`); burst offsets have the same defect for tasks with several phases.
* `compute_strictly_periodic_memory`, `compute_fixed_offset_buffer_sizing` and `add_vbuffers` ignore the return values of the generators
  (incomplete offsets are caught by an assertion of `checkOffsets`) and the validity of the sizing: an infeasible period prints 0, and
  `add_vbuffers` then adds channels with `0 - preload` initial tokens. The multiplier of `add_vbuffers` is truncated to an integer.
* LP1, LPN, REALLP1 (`collect_lp_results`, CSDF_KPeriodicScheduling_LP.cpp:248-278): the period listed for a task is OMEGA*K/Ni instead of OMEGA*K*phases/Ni, so the returned schedule of a task with several phases is not valid (`C83_collected_counterexample`); with K > 1 the starts are moreover listed phase by phase instead of in execution order.
* LP1, LPN, REALLP1: when the program has no solution the default `Scheduling` with period 0 is used, so the command prints an infinite throughput for a deadlocked graph (second case of `C83_lp_optimal` and `C83_real_optimal`).
* C84: `normalize` aborts with a failed assertion (`res->size() == getVerticesCount()`) on every consistent graph that has channels and an isolated task, although a graph without any channel is accepted. On graphs with several components the numbers are not minimal: the factor needed by one component also multiplies the components treated before.
* C85. A reentrancy factor other than 0 and 1 is not saved: the writer turns every nonzero factor into a loop of one token, which is loaded as factor 1 (`C85_reentrancy_counterexample`).
* C85. A self-loop of one token with rates 1 drawn by the user disappears when the graph is loaded: the reader takes it for reentrancy (`C85_loop_counterexample`).
* C85. The reader dereferences the text node of an attribute without a test, so a graph with an empty application, graph or task type name can be saved, but loading the file depends on the library keeping an empty node (`C85_empty_name_counterexample`).
* C86. The default detection of storage dependencies (`computeCycles`) deletes a vertex from the dependency graph after its first visit and so misses channels: a graph of three tasks with sizes 2, 2, 4 is reported with critical channel 0 only, but one more token in channel 1 improves the period from 7 to 6 (`C86_default_counterexample`). The search with `SYMB_EXEC_ORIGINAL` only enlarges reported channels.
* C87: with `SYMB_EXEC_ORIGINAL` the exploration misses points of the Pareto front, because the detection of C86 misses critical channels. On three tasks of duration 1 with channels 0 → 2 and 1 → 2 of rates 1 and 2 and 0 → 1 of rates 3 and 3, it reports size 10 as the smallest with throughput 1/4, while sizes 3, 2 and 3 (8 in total) reach it (`C87_default_counterexample`).
* C15 with initial phases: the first edge of the chain of a task (generateKperiodicSelfloop, kperiodic.cpp:641) uses the duration of the first periodic phase for the first initial phase. With a longer initial phase executions overlap and consumers read tokens that are not there (`C15_init_duration_counterexample`).
* C15 with initial phases: the granularity of a channel (computeFineGCD, models/Dataflow.h:918-934) ignores the initial rates. With periodic rates 2 and 2, one initial token and initial rate 1 no constraint is generated at all (`C15_init_granularity_counterexample`).
* C16 with initial phases: the rounding to a multiple of gcd(Wc, Rc) treats an initial phase as if it were repeated, so valid schedules are excluded (`C16_init_counterexample`: the consumer could start at 1, the constraint says 6).
* B_M_OPT, default mode: the search by knee points analyses many distributions but can only return the initial distribution or nothing: every other knee has an `INT_MAX` coordinate on an edge, because the edges that are not feedback edges are part of the point with quantity 0. If the initial distribution reaches the target, nothing is left, and dse.cpp:460 calls `getNextDistribution` on an empty set (undefined behaviour); `C88_undefined_at_the_target`, `KneeExample.C88_undefined_example`.
* B_M_OPT with all edges considered (parameter SYMB_EXEC): raised knees that are not smaller than the smallest feasible point found are dropped, and this point itself is not returned either. If it is the smallest one, the answer is lost (`KneeExample.C88_smallest_lost`); the front below the target is lost (`C88_front_lost`); with steps above 1 the checklist leaves the step lattice (`C88_larger_steps`).
* The search decides by the parameter SYMB_EXEC which analysis to run and which edges to consider (base_monotonic_optimisation.cpp:226), the exploration by SYMB_EXEC_ORIGINAL / SYMB_EXEC_CORRECTED (dse.cpp). With only the latter the search treats the graph without feedback edges as if its upper half of edges were feedback edges.
* **Strictly periodic scheduling (C89).** The self constraint of a task carries the task id where a channel id is expected, so `CSDF_SPeriodicScheduling` reports the channel with that id as critical although it is not on the circuit (`C89_wrong_channel`). When the minimum ratio is negative, no strictly periodic schedule exists, and the command still returns and prints one with a negative period (`C89_negative_period`).
* **Chart (C90).** Spaces are truncated to whole columns for every execution, so for a fractional period the chart drifts: with period 15/4 a period takes 3 columns (`C90_drift`). A phase of duration 0 asks for a string of length -1 (`C90_zero_duration`).
* **ASAP schedule (C91).** `computeComponentThroughputSchedule` puts the segment numbered `periodic_state_idx` in the periodic part, although the repeated state is recorded at the end of that segment. The reference actor gets K+1 iterations in a period that lasts K (`C91_cut`), so the printed schedule may consume tokens that are not there (`C91_wrong_schedule`). Tasks that start only after the first record are right by accident: their vectors are shifted by one. For a graph with several components, the channels between components are ignored (`C91_components`).
* **1-periodic scheduling (C92).** When no 1-periodic schedule exists the minimum ratio is negative, and `CSDF_1PeriodicScheduling` still returns a schedule, with a negative period and phases in the wrong order (`C92_negative_period`). The K-periodic command returns an empty schedule in that case.
* **PeriodicDSE on a deadlocked graph (C93).** When the 1-periodic throughput is 0 (a circuit without tokens), `MAX_GRANULARITY` is 0, the interval from 0 to 0 is never narrower than it, and `freq_left == 0` pushes it again twice: the command never ends and its queue grows (`FrontExample.C93_dead`). For a negative throughput it prints nothing.
* **Untimed execution (C94).** `symbolic_execution` loops `while (total > 0)` without detecting that no task can execute: it never ends on a deadlocked graph, and the assertion on its result cannot fail (`C94_deadlock`). With several phases it executes each task as many times as it has executions of phases, each with the rates of all the phases together: a live graph of a task with one phase and a task with two hangs (`C94_csdf_counterexample`).
* **Packet trace (C95).** A computation waits only for the last packet sent on each input channel. When it takes tokens of several executions of the producer, it does not wait for the packets of the earlier ones (`C95_missing_dependency`). Without `psize`, the rate of the first channel met is the size of packets for all the others; the loop over the packets counts down to exactly 0 and does not end if it is not a divisor (`C95_default_size`); the same happens with a `psize` that does not divide a rate (`C95_returns`). The parameter `ack` is read but not used.
* **Back-pressure sizing (C96).** The sizes printed leave out the initial tokens: a channel with ten tokens may be given the size 1 (`C96_tokens_ignored`). `beta_ij` subtracts a number of tokens from a duration; on channels that carry more than a token per unit of time the starts can be too early, and the sizes too small even with the tokens added (`C96_units`). With several phases the sizes can be too small for the period, without any token (`C96_csdf_counterexample`: size 4, period 6, but no schedule within 4 is faster than 8). A period shorter than a task needs is not refused.
* **CycleCount (C97).** A channel from a task to itself is counted only if the task is the one of least id of a longer cycle (`C97_loops`). The loop over ids stops at the number of tasks: once tasks have been removed, ids can be greater, and cycles are missed (`C97_gap`). The global list of cycles is not emptied: a second CycleCount in the same run adds to the first (`C97_second_call`). The graphs built in each round are never freed.
* **Routes of the bufferless mapping (C99).** The table of utilisations has V*V entries but indices start at V: from the last core of the mesh `findPathDijkstra` reads beyond its end (`C99_last_core`), and `findLowContentionPath`, which reads before it looks whether the target is visited, does so from any core (`C99_limit_out_of_bounds`). `findPathDijkstra` compares only the last links, so its route can be more contended than another of the same length (`C99_not_least_contended`). `getPathLength` takes the mesh to be square; on others `getPath` can find nothing (`C99_not_square`). Without a path `findPathDijkstra` reads `prev[-1]` (`C99_no_path`).
* **K-Iter on reentrant tasks (C100).** With reentrancy factor 0 (the default for SDF3 tasks without a one-token self-loop) the event graph has no constraint from the last execution of a period to the first of the next one (kperiodic.cpp:663), although the executions inside a period are ordered. With several executions per period K-Iter can report a throughput no schedule with ordered starts reaches: 1 instead of 2/3 in `ReExample.C100_kiter_optimistic`. The self-timed analysis errs the other way, since it never overlaps executions of a task (`C100_self_timed`), so the two analyses disagree on such graphs.
* BufferlessKPeriodicScheduling (C102): `stop_at_first` only enters the improvement loop when the 1-periodic throughput is already positive, so it gives up on live graphs that have no 1-periodic schedule. `get_previous` prints the throughput of the vector before the last as "Maximum throughput". The command does not look at the bufferless types of the channels: `KScheduleBufferLess` is `KSchedule`. `do_linear` returns before doing anything.
* The GLPK object (C103): `solve` returns true when GLPK reports an unbounded program (`C103_unbounded_is_success`). A second `addColumn` with an existing name is dropped without an error, and returns a number that no column has (`C103_redeclared_column`). Coefficients below the precision are dropped (`C103_small_coefficient`). The bounds of binary columns are lost (`C103_binary_bounds`). `getValue` gives the value of the relaxation for integer columns (`C103_getValue_of_integer`). `rowIsReach` answers false for every row, because the bounds are only checked when they already have been (`C103_rowIsReach`). After one `solve`, or after writing the problem to a file, `solve` throws, because rows and columns are added again (`C103_serves_once`).
* PrintKiter (printers/stdout.cpp:123-250): the printed function `generateGraph` has no `return new_graph;`, so using its result is undefined (C107_no_return_counterexample); when the tasks are not in the order of their ids (setVertexId allows this), the printed `addVertex(id)` calls fail (C107_order_counterexample); ids of channels are not printed and become 1, 2, ...; durations are printed with six significant digits; names are not escaped.
* **C110 (overflow).** `calcRepetitionVector` multiplies the numerator of each fraction by the least common multiple of all denominators before dividing: three tasks in a chain with rates near 2^30 have a vector that fits in a `long` (entries below 2^62) but the product overflows (`C110_overflow_counterexample`). `setEdgeInPhases`/`setEdgeOutPhases` accumulate with an `int` start value: a rate of 2^32+1 is silently read as 1 and the vector returned does not balance the graph (`C110_rate_counterexample`).
* BufferlessNoCMapAndRoute reads the table of link utilisations beyond its end as soon as a route leaves from the last core of the mesh, which happens for a chain of four tasks on the mesh chosen for it and, for any circuit, each time the last core is tried (C112_out_of_bounds, C112_circuit_out_of_bounds). A task is put in the queue once per channel from the last of its predecessors and takes a new core each time, so that four channels between two tasks use up a mesh of four cores and the next access to `avail_cores[0]` is undefined (C112_parallel). The mapping is read back from the routes, so a task without channel to another one is never mapped and the command aborts (C112_alone); a self-loop outside any larger circuit stays in the graph that decides the order and blocks its task (C112_self_loop). For a task none of whose neighbours is mapped the cost is -1, which is also the mark of 'no best core yet': the last available core is taken instead of the first.
* In BufferlessNoCMapAndRoute, `removeCycleEdges` indexes by ids from 1 a vector of marks with one entry per task: the last id is always out of bounds (C113_always_out_of_bounds; harmless in practice for `vector<bool>` unless the number of tasks is a multiple of the word size). `generate_task_order` counts phases as whole executions and does not end on live graphs with several phases (C113_phases); a graph with a deadlock is stopped before by the check of the period.
* **C114** `PartialExpansion` adds the distance between two executions (`shift`, ExpansionGraph.cpp:234-237) to the bounds `f0` and `g0` where it must be subtracted. With one execution per task the constraint of a channel is right exactly when both rates are equal (`C114_one_execution`); with a reader of rate 2 and a writer of rate 1 it lets the reader start without tokens (`C114_too_loose`). With two executions per task even equal rates give wrong constraints (`C114_too_strict`). `algorithm1` and `algorithm2` only log.
* **C115** `isConflictPresent` converts the difference of two start dates to an integer, and `checkForConflicts` the period: with fractional dates conflicts are missed (`C115_missed`) or invented (`C115_false_alarm`), and a period below 1 is a division by zero (`C115_division_by_zero`). When a schedule has several starts per period each start is taken to be repeated at each execution, so conflicts are reported that never happen (`C115_several_starts`; this side is safe). `getPrevAndNextVertex` leaves `prev` unset for a task without incoming edge. Only equal start dates are looked for: transfers that overlap without starting together are not conflicts for the program.
* **C116** A transfer that ties two groups of a router when it comes is put in no bag, because `GroupList::add` drops the value of such a call (C51). Three tasks on a 2 × 2 mesh with XY routes 0 → 1, 1 → 2, 0 → 2 are enough: the transfer of the third through router 0 competes with both others and is not put in sequence with them (`C116_lost`).
* Seen while reading, in code that is not modelled, so without a theorem:
  `generateTDMA` writes through a pointer it never sets (generateTDMA.cpp);
  the linear program of the bufferless scheduling takes the duration of the later phase in its rows `Task_order` and its period
  lacks the number of phases (bufferLessAwareScheduling.cpp);
  `removeOrphanNodes` restarts its loop for ever on an empty graph (software_noc.cpp:1826-1852).
* C118: in SoftwareControlledNoCBufferless two channels between the same two tasks over the same first link end the program (`C118_parallel`, the link tasks get the same name, software_noc.cpp:1057); a task with a channel to itself ends it with `exit(0)` (`C118_self_loop`, 1742-1746); on a route of one link the sender sets the consumption rate of the destination to 1 (`C118_rate_lost`, 1818), which changes the repetitions.
* C46: rates and execution times written with blanks in an SDF3 file lose values without notice: the text is cut at semicolons first, and of each part only the first word is kept, so `1, 2, 3` is read as the single rate 1 (`C46_blank_drops`, `C46_blank_counterexample`; commons.h:499-509, SDF3Wrapper.cpp:106-119). The list reader `splitSDF3List` alone accepts blanks (`C06_blanks`).
* C119: the totals of the rates are added up in an `int` (Dataflow.h:743, 796): a rate of 2^31 gives a negative total and the event graph a constraint with the opposite weight (`C119_rate_counterexample`). With 2^63 - 1 initial tokens and rates of five the generator overflows (`C119_overflow_counterexample`). Where `long double` is `double`, `commons::floor(2^62 - 1, 2)` is 2^62 (`C119_floor_double`).
* C120: the states compared by `computeComponentSo4Schedule` leave out the tokens on their way and the position in the frame: a circuit of two tasks gets throughput 1/3 where no execution over the network exceeds 2/7, and its tasks get different rates (`C120_throughput_counterexample`). `advanceTimeWithMod` never returns `LONG_MAX`, so that a deadlock is never reported and the command does not end (`C120_deadlock_never_reported`). Time goes from one end of an execution to the next, so that arrivals between are seen late (`C120_late_counterexample`). The date is truncated before the slot is computed (`C120_fraction_counterexample`).
* C121: `generateConditions` returns `slots + 1` slots for both kinds of tables, but in XML tables the number read is already the number of slots (`C121_xml_counterexample`). A heading line `src,dest,slot` of a text table gives an empty vector that is then read at index 2; a channel without a rule gets slot 0 (`C121_heading_counterexample`).
* C120: `So4Scheduling` executes the strongly connected components one by one and prints their schedules side by side: a task fed by another component is printed with starts before its input (`C120_components_counterexample`). Tasks on no circuit have no entry (`C120_command`).
* C123: `is_valid_schedule` lets only one of the tasks that start at date 0 take its tokens (`C123_zero_counterexample`); compares the executions of a task only when its reentrancy factor is 0 (`C123_overlap_counterexample`), and then as if one had started at date 0, which refuses valid schedules (`C123_reentrancy_counterexample`); an execution that starts when the previous one ends takes the tokens of the previous phase (`C123_phases_counterexample`); with a single task it reads the first element of an empty `std::map` (`C123_alone_counterexample`). Its vectors have one element per channel and are indexed by tasks.
* C124: `print_schedule` numbers the rows from 0 while the macros of `scheduling.sty` number them from 1, so the first task to start is drawn above the grid and the last row stays empty; it writes 0 where the macro expects the width of the grid, and the latest date where it expects the distance between ticks (`C124_grid_counterexample`, for every graph with a task).
* C125: `SymbExecDebug` reads the sizes with `std::stol`: text after a number is ignored (`C125_garbage_counterexample`), `std::out_of_range` is not caught (`C125_overflow_counterexample`). It numbers the sizes from 1 and looks them up by edge id with `operator[]`, so on a graph whose ids are not 1..n a channel gets the size 0 and a live graph is announced to deadlock (`C125_ids_counterexample`, `C125_ids_counterexample_command`).
* C126: `PeriodicScheduling2DOT` names the block of an execution by the name of the task followed by its rank: execution 11 of `a1` and execution 1 of `a11` get the same name and Graphviz draws one (`C126_names_counterexample`). The height of blocks is a `static` variable initialised from the scale of the first call (`C126_static_counterexample`). With initial phases the phase of an execution is computed from its place in the list without subtracting the initial ones (`C126_init_counterexample`). The default date uses the truncated total duration (`C126_default_counterexample`). The schedule computed for a graph of unbounded throughput is empty and is read out of range (`C126_empty_counterexample`).
* C127: `GenerateNoCDOT`: the palette contains `#4191E8` twice, so that the fourth and fifth channels cannot be told apart (`C127_colours_counterexample`). The place of a task that is not mapped is a sum over its mapped neighbours divided by the number of all its channels (`C127_free_counterexample`), 0/0 converted to an integer for a task without channel (`C127_isolated_counterexample`).
* C128: `EventGraph::printDOT` uses the id 0 as "no cluster is open": a task with the id 0 after another one opens a cluster that is never closed, and the text is not valid (`C128_dot_zero_counterexample`). Its thick edges use `previous`, which nothing sets: they are all those that leave the first event (`C128_dot_thick_counterexample`). `printTikz` puts all the events of a task at the same place (`C128_tikz_place_counterexample`) and names the tasks by the low byte of the id (`C128_tikz_label_counterexample`). `printXML` omits events without constraint (`C128_xml_counterexample`).
* C129: `PrintInfos` counts 0 cycles for an isolated task of several phases, so that `Sum(Nt=qt*phit)` is not the sum of the products (`C129_isolated_counterexample`). Its TotalDuration is truncated after each phase (`C129_duration_counterexample`). On a graph without task it reads the first element of an empty map before it comes to the text NO TASKS (`C129_empty_counterexample`).
* C130: `PrintGraph` does not escape names: a quotation mark, or a backslash at the end, breaks the text (`C130_name_counterexample`). It computes the repetition vector without using it in the default form and does not reset the graph, so that the graph stays read-only and a transformation named after `PrintGraph` on the same command line stops at its first edit (`C130_locked`). On a graph without task it reads the first element of an empty map (`C130_empty_counterexample`).
* C131: `generateAllShortestPaths` clears the entries of the pairs `(s, s)` only, so that a second call doubles all other lists (`C131_twice_counterexample`). `getPathLength` assumes a square mesh: on 3 columns and 2 rows no path from the first core of a row to the last is found (`C131_rectangular_counterexample`).
* C132: throughputs are written with the default precision of a stream, so that two sets of Pareto points with different throughputs can give the same file, whatever the format, as long as it has finitely many texts (`C132_rounding_counterexample`).
* C133: `runSDF3Throughput` cuts the output of SDF3 into lines with `commons::split<std::string>`, which keeps only the first word of each line. For the format quoted in the code, `thr(autogen) = 0.0434783`, the `=` is lost and the throughput is 0, for every graph and value: the comparison reports a difference whenever Kiter's throughput exceeds the tolerance, and agreement otherwise (`C133_blank_counterexample`).
* C134: the statistics of the TDMA replay divide by the number of iterations begun, but add up those finished: with a rest, both averages are k/(k+1) of what they should be (`C134_rest_counterexample`). The time of an iteration is measured from the delivery of its first packet: with one packet per iteration it is always 0 (`C134_single_counterexample`), and when the last packet by number is delivered before the first one it is negative (`C134_negative_counterexample`).
* C135: `updateEventGraph` calls `addEventGroup(task,p,ki+1,newki)` once per phase `p`, but the second argument is a number of phases: each call adds the phases 1 to `p`, so a task of P phases gets P(P+1)/2 vertices per new period. The extra vertices carry no edge, so throughput is right (C53), but `sum_Ki` of the report is too large in every row where such a task was raised (`C135_phases_counterexample`), and can exceed `sum_Ni`. `sum_NiNj` adds `max(Ni,Nj)` (`C135_ninj_counterexample`).
* C135: `updateEventGraph` regenerates a channel outside the critical circuit once for each of its ends that is raised, so its constraints are in the event graph twice: harmless for the throughput (C53), but `sum_KiKj` is too large (`C135_constraints_counterexample`).
* C136: a merged router repeats the order of its first period, although the schedule it is made from may have several starts per period: in `C136_order_counterexample` an execution at 7/2 is put after one at 4. All its phases get the duration of the longest merged task (`C136_duration_counterexample`), and the rates of the merged tasks are replaced by 1 (software_noc.cpp:1532-1538).
* C137: `PeriodicSizing` and `SPeriodicSizing` assert `MIN_PERIOD <= period` before they replace the default 0, so that without `PERIOD` they fail on every graph (`C137_default_counterexample`). `No solution` is never printed (`C137_no_solution_counterexample`). For a graph whose 1-periodic throughput is negative, one that runs but has no periodic schedule, the assertion holds for every period and the size 0 is printed (`C137_impossible_counterexample`, `C137_strict_impossible_counterexample`).
* C138: `removeOrphanNodes` never ends on a graph in which no task has a channel: after the last task is removed nothing resets the flag of the loop (`C138_diverges_counterexample`).
* C139: `findHP` keeps the value of the last task of the schedule only. For a task of the network the ratio read from the map is the default 0, so the value is infinite, and it is then converted to an integer, which is undefined (`C139_network_counterexample`).
* C140: the occupancy chart subtracts the number of elapsed periods, as a fraction, instead of their length, so that a task is marked too long in its first period and from some time on never (`C140_blank_counterexample`, `C140_marks_counterexample`).
* C143: `mergeConfigNodesInit` moves only the first input and the first output of a router. A second input stays at the old router, which no longer has an output (`C143_inputs_counterexample`).
* C144: `removeCycleEdges` marks visited tasks in a vector with one place per task, indexed by identifier. Identifiers begin at 1, so that the last task is out of bounds, for every graph (`C144_bounds_counterexample`).

## Trusted base

* Lean 4.33.0 kernel. No axioms are added; theorems depend on at most `propext`, `Classical.choice`, `Quot.sound`.
  `AXIOMS.md` gives the axioms of each theorem, as printed by `#print axioms`.
* The transcription of the C++ into Lean, by reading: every definition cites the file and lines it models.
  `COVERAGE.md` lists, for each source file, the modules that model it and the lines cited, and the files not modelled.
* Not modelled: floating point rounding (times are rationals; only C119 rounds the quotients of `commons::floor`), memory management, the messages of the log, the XML
  library (the model starts from the parsed tree), the LP solvers (a program's solution is an argument, constrained by the
  rows the code writes), wall-clock and time limits. The code has no threads.
* Machine integer overflow is modelled only for the repetition vector (C110) and the K-periodic event graph (C119). Elsewhere
  `long` is unbounded.
* Loops the code does not bound take an explicit bound in the model; the theorems hold for every bound, and a result is
  returned only if the loop stops within it. Where termination is a property it is a theorem of its own.
