{"id": "C01", "title": "Fractions are kept in lowest terms without changing their value", "statement": "Constructing Fraction(n,d) with d>0 yields a fraction whose value is exactly n/d and whose numerator and denominator are coprime with a positive denominator; Fraction(0,0) is not a value at all (it divides by zero).", "quantifier": "every integer n and every integer d", "why_tests_cant": "unbounded integer domain; tests sample a handful of pairs", "anchors": ["src/libkiter/commons/commons.h: Fraction::Fraction, getNumerator, getDenominator"]}
{"id": "C02", "title": "Fraction equality decides equality of rational values", "statement": "For fractions built with positive denominators, f == g holds exactly when the two rational numbers are equal (so == is an equivalence and agrees with != and <=). With a negative denominator this fails: Fraction(1,-2) == Fraction(-1,2) is false.", "quantifier": "every pair of fractions", "why_tests_cant": "needs every representation of every rational", "anchors": ["src/libkiter/commons/commons.h: Fraction::operator==, operator!=, operator<="]}
{"id": "C03", "title": "Fraction ordering is the order of the rationals and always terminates", "statement": "For positive denominators, f < g returns true exactly when the rational value of f is smaller; f > g and f <= g agree with it; comparisons with an integer (f < i, f > i) agree with the rational order too; the internal loop stops for every input.", "quantifier": "every pair of fractions, every fraction/integer pair", "why_tests_cant": "termination and exactness of a continued-fraction loop over an unbounded domain", "anchors": ["src/libkiter/commons/commons.h: Fraction::operator<, operator>, operator<(V), operator>(V), operator<="]}
{"id": "C04", "title": "Fraction multiplication and division are exact", "statement": "f*g and f/g (g non zero) denote exactly the product and the quotient of the two rationals and are again in lowest terms with positive denominator; division by a zero fraction or integer is reported as a failure and never returns a value.", "quantifier": "every pair of fractions, every fraction/integer pair", "why_tests_cant": "unbounded arithmetic domain including sign cases", "anchors": ["src/libkiter/commons/commons.h: Fraction::operator*=, operator/=, operator/, operator*"]}
{"id": "C05", "title": "extended_euclide solves a*x + b*y = c or reports failure", "statement": "commons::extended_euclide(a,b,c) returns a pair (x,y) with a*x+b*y=c whenever gcd(a,b) divides c, and fails otherwise; it terminates for all a,b.", "quantifier": "all integers a, b, c with b possibly 0", "why_tests_cant": "the loop is unbounded and the property is universally quantified over integers", "anchors": ["src/libkiter/commons/commons.h: extended_euclide, modulo"]}
{"id": "C06", "title": "SDF3 run-length lists expand exactly", "statement": "splitSDF3List expands a comma separated list with optional n*v items to the list containing each v exactly n times (once when no multiplicity is given) in order, ignoring blanks around the items; a list with an item of three or more fields separated by '*' is rejected.", "quantifier": "every list of items and multiplicities", "why_tests_cant": "every list length and multiplicity", "anchors": ["src/libkiter/commons/commons.cpp: splitSDF3List"]}
{"id": "C07", "title": "Algorithm registry: first registration of a name wins", "statement": "After any sequence of registrations, looking a name up returns the first entry registered under that name, and nothing if it never was; a later registration under the same name reports false and changes nothing.", "quantifier": "every history of registrations and lookups", "why_tests_cant": "ranges over all histories", "anchors": ["src/libkiter/commons/KiterRegistry.h: add, get"]}
{"id": "C08", "title": "Vertex and edge ids and names stay unique", "statement": "Starting from an empty graph, after any sequence of addVertex/addEdge/removeVertex/removeEdge/setVertexId/setEdgeId/setVertexName/setEdgeName calls that succeeded, no two vertices share an id, no two edges share an id, and every edge's endpoints are present vertices; so getVertexById(getVertexId(v)) returns v.", "quantifier": "every history of graph editing calls", "why_tests_cant": "invariant over all histories", "anchors": ["src/libkiter/models/Dataflow.h: addVertex, addEdge, removeVertex, removeEdge, setVertexId, setEdgeId, setVertexName, setEdgeName, getVertexById, getEdgeById"]}
{"id": "C09", "title": "Edits invalidate previously computed results", "statement": "After any history of calls, whenever the graph says its repetition vector is available, it is the vector that the computation would return for the current graph, and every structural, rate or initial token change is rejected until the computed results are reset; after a change no vector is available, and reading a repetition value while it is not available fails.", "quantifier": "every history of edits and computations", "why_tests_cant": "invariant over all interleavings of edits and computations", "anchors": ["src/libkiter/models/Dataflow.h: reset_computation, set_repetition_vector, has_repetition_vector, setNi, getNi, setPreload"]}
{"id": "C10", "title": "Edge rates: stored total and phase lookup agree with the phase vector", "statement": "After setEdgeInPhases/setEdgeOutPhases with a vector of matching length, the total rate read back equals the sum of the vector, the phase count its length, and getEdgeInPhase(e,k) is the k-th entry; a vector of wrong length is rejected.", "quantifier": "every edge, every phase vector, every phase index", "why_tests_cant": "all vectors", "anchors": ["src/libkiter/models/Dataflow.h: setEdgeInPhases, setEdgeOutPhases, getEdgeIn, getEdgeInPhase, getEdgeOutPhase"]}
{"id": "C11", "title": "The rate granularity (fine GCD) read from an edge divides every current rate of that edge", "statement": "getFineGCD(e) divides every production and consumption rate currently stored on e. True on a graph whose rates were not modified since the first read; false in general because the value is cached and not refreshed when rates are edited.", "quantifier": "every history of rate edits and reads", "why_tests_cant": "depends on the order of edits and reads", "anchors": ["src/libkiter/models/Dataflow.h: getFineGCD, computeFineGCD, setFineGCD"]}
{"id": "C12", "title": "A computed repetition vector balances every channel", "statement": "If computeRepetitionVector returns true on a graph without a previous result then for each channel, production per period of the source times its number of repetitions equals consumption per period of the target times its number of repetitions, and every task's number of executions is a positive multiple of its phase count.", "quantifier": "every CSDF graph (any shape, several components, cycles, parallel and self edges)", "why_tests_cant": "all graphs of all shapes", "anchors": ["src/libkiter/models/repetition_vector.cpp: computeRepetitionVector, calcFractionsConnectedActors, calcRepetitionVector"]}
{"id": "C13", "title": "A computed repetition vector is the smallest one", "statement": "The repetition vector returned is minimal: every other positive integer solution of the balance equations on a connected graph is a multiple of it, and on any graph the numbers of iterations have greatest common divisor 1.", "quantifier": "every consistent graph and every other solution", "why_tests_cant": "universal over all other solutions", "anchors": ["src/libkiter/models/repetition_vector.cpp: calcRepetitionVector"]}
{"id": "C14", "title": "Inconsistent graphs are rejected, consistent ones are not", "statement": "computeRepetitionVector returns true exactly when the balance equations have a solution with all entries positive (rates positive).", "quantifier": "every graph with positive total rates", "why_tests_cant": "needs completeness of the traversal for all graphs", "anchors": ["src/libkiter/models/repetition_vector.cpp: calcFractionsConnectedActors"]}
{"id": "C15", "title": "K-periodic channel constraints are sufficient: no consumer ever reads a token that is not there", "statement": "For a channel between two tasks, if the start times of the K periodic executions satisfy every constraint added by generateKPeriodicConstraint for a period Omega, then in the infinite K-periodic schedule every execution of the consumer starts only after enough producer executions have completed for its tokens to be available.", "quantifier": "every rate vector, initial marking, periodicity vector, duration vector, start times, period and execution index", "why_tests_cant": "infinite schedule, unbounded rates and periodicities", "anchors": ["src/libkiter/algorithms/throughput/kperiodic.cpp: generateKPeriodicConstraint"]}
{"id": "C16", "title": "K-periodic channel constraints are necessary: no valid K-periodic schedule is excluded", "statement": "Every K-periodic schedule of positive period in which no channel underflows satisfies each constraint added by generateKPeriodicConstraint (so the computed period is the best achievable for that K).", "quantifier": "every valid K-periodic schedule of every channel", "why_tests_cant": "must hold for all schedules, infinite executions", "anchors": ["src/libkiter/algorithms/throughput/kperiodic.cpp: generateKPeriodicConstraint"]}
{"id": "C17", "title": "Optimised and reference builds generate the same constraint", "statement": "The integer computation of the constraint bounds (remainder based) used in the optimised build equals rounding down/up to a multiple of the gcd as in the reference build, and the early exit never drops a constraint.", "quantifier": "all integer inputs with positive gcd", "why_tests_cant": "different preprocessor configurations, all integers incl. negative remainders", "anchors": ["src/libkiter/algorithms/throughput/kperiodic.cpp: generateKPeriodicConstraint (STRONGLY_OPTIMIZED / NOT_OPTIMIZED)", "src/libkiter/commons/commons.h: floor, ceil"]}
{"id": "C18", "title": "Self-loop constraints prevent overlapping executions of a non-reentrant task", "statement": "If the start times of the K periodic executions of a task with positive reentrancy satisfy the constraints added by generateKperiodicSelfloop for period Omega, then in the infinite schedule every execution starts no earlier than the end of the preceding one.", "quantifier": "every task, duration vector, K, period, execution index", "why_tests_cant": "infinite schedule", "anchors": ["src/libkiter/algorithms/throughput/kperiodic.cpp: generateKperiodicSelfloop"]}
{"id": "C19", "title": "The periodicity update keeps K within the repetition vector and makes K grow", "statement": "updateVectorWithLocalNi never decreases a periodicity, replaces K_i by a multiple of itself, keeps K_i a divisor of N_i/phases_i if it was one (so the 'Bad idea' assertion never fires) and returns true exactly when some entry changed.", "quantifier": "every graph, every K vector of divisors, every critical circuit", "why_tests_cant": "all graphs and iteration histories", "anchors": ["src/libkiter/algorithms/throughput/kperiodic.cpp: updateVectorWithLocalNi"]}
{"id": "C20", "title": "K-Iter terminates", "statement": "Whatever critical circuits the cycle-ratio solver returns, the sequence of K updates made by compute_Kperiodic_throughput is finite: it stops after at most the number of steps bounded by the sum over tasks of the number of prime factors of the repetition counts.", "quantifier": "every solver behaviour (oracle), every consistent graph", "why_tests_cant": "unbounded loop with an external oracle", "anchors": ["src/libkiter/algorithms/throughput/kperiodic.cpp: compute_Kperiodic_throughput, updateVectorWithLocalNi"]}
{"id": "C21", "title": "Start times computed for a feasible period satisfy every constraint", "statement": "When the event graph has no positive cycle for the given period, computeStartingTimeWithOmega returns start times that satisfy every event constraint and whose smallest value is 0; if some cycle is positive no start times can satisfy the constraints.", "quantifier": "every event graph and every period", "why_tests_cant": "all graphs, all weights", "anchors": ["src/libkiter/models/EventGraph.h: computeStartingTimeWithOmega"]}
{"id": "C22", "title": "Symbolic execution never consumes tokens that are not there", "statement": "In every execution of the self-timed simulation, channel contents are never negative, and at every moment tokens present + tokens consumed = initial tokens + tokens produced.", "quantifier": "every graph, every interleaving of starts, ends and time advances", "why_tests_cant": "reachability over unboundedly long executions", "anchors": ["src/libkiter/algorithms/throughput/actor.cpp: isReadyForExec, execStart, execEnd", "src/libkiter/algorithms/throughput/state.cpp"]}
{"id": "C23", "title": "With bounded buffers, occupancy never exceeds capacity and free space is determined by the rest of the state", "statement": "In every execution with a storage distribution, tokens present plus space reserved by running producers plus tokens being read never exceed the capacity of the channel; free space equals capacity minus these, so ignoring free space when comparing states loses nothing.", "quantifier": "every execution, every storage distribution at least as large as the initial tokens", "why_tests_cant": "all executions", "anchors": ["src/libkiter/algorithms/throughput/actor.cpp: isReadyForExec, execStart, execEnd", "src/libkiter/algorithms/throughput/state.cpp: State::State, operator=="]}
{"id": "C24", "title": "Time advance completes exactly the earliest running executions", "statement": "advanceTime moves the clock to the next completion: no running execution gets a negative remaining time, at least one reaches 0, the clock increases by exactly that amount; with nothing running it signals deadlock and changes nothing.", "quantifier": "every state with sorted execution queues and remaining times below LONG_MAX", "why_tests_cant": "all states", "anchors": ["src/libkiter/algorithms/throughput/state.cpp: advanceTime"]}
{"id": "C25", "title": "Reported deadlock is a real deadlock", "statement": "When the simulation reports deadlock no actor can ever fire: in that state no actor is ready, none is running, and no sequence of steps leaves the state.", "quantifier": "every reachable state", "why_tests_cant": "reachability", "anchors": ["src/libkiter/algorithms/throughput/symbolic_execution.cpp: computeComponentThroughput", "src/libkiter/algorithms/throughput/state.cpp: advanceTime"]}
{"id": "C26", "title": "A repeated state makes the reported throughput the long-run throughput", "statement": "If a recorded state equals an earlier one then the recorded sequence is periodic from there on, and the number of iterations per time unit over the recorded cycle is the limit average of the infinite execution.", "quantifier": "every deterministic execution history", "why_tests_cant": "infinite execution", "anchors": ["src/libkiter/algorithms/throughput/state.cpp: StateList::addState, computeThroughput, computeIdx"]}
{"id": "C27", "title": "Size of a storage distribution equals the sum of its channel quantities", "statement": "After any sequence of setChannelQuantity calls the reported distribution size equals the sum of all channel quantities, and each quantity read is the last one written.", "quantifier": "every sequence of updates", "why_tests_cant": "all histories", "anchors": ["src/libkiter/algorithms/dse/buffer_sizing.cpp: StorageDistribution::setChannelQuantity, updateDistributionSize, getDistributionSize"]}
{"id": "C28", "title": "A storage distribution set is a set keyed by size", "statement": "After any history of addStorageDistribution/removeStorageDistribution calls, the set contains exactly the distributions added and not removed since, without duplicates, each filed under its own size; getNextDistribution on a non-empty set returns a member of minimal size; p_max is at least the throughput of every member and is attained by an addition, and it is the maximum throughput ever added when throughput depends on the quantities only (a second addition of the same quantities is ignored).", "quantifier": "every history of additions and removals", "why_tests_cant": "all histories", "anchors": ["src/libkiter/algorithms/dse/buffer_sizing.cpp: StorageDistributionSet::addStorageDistribution, removeStorageDistribution, getNextDistribution, hasStorageDistribution"]}
{"id": "C29", "title": "Pareto minimisation keeps exactly the useful points", "statement": "minimizeStorageDistributions keeps only distributions such that no smaller-or-equal retained distribution reaches at least their throughput (given one throughput per distribution), and never removes all distributions achieving the best throughput at their size.", "quantifier": "every set of distributions", "why_tests_cant": "all sets", "anchors": ["src/libkiter/algorithms/dse/buffer_sizing.cpp: minimizeStorageDistributions"]}
{"id": "C30", "title": "Infeasible-region bookkeeping is exact and redundancy free", "statement": "After any sequence of addToUnsat calls, a point is reported unsatisfiable exactly when it is pointwise below some point ever added, and the stored points form an antichain.", "quantifier": "every sequence of insertions, every queried point", "why_tests_cant": "all histories, infinite point space", "anchors": ["src/libkiter/algorithms/dse/buffer_sizing.cpp: addToUnsat, unsatContains, inBackConeOf"]}
{"id": "C31", "title": "Feasible-region bookkeeping is exact", "statement": "After any sequence of addToSat calls, a point is reported satisfiable exactly when it is pointwise above some point ever added. Redundancy freedom (stored points form an antichain) is claimed by the comments but does not hold.", "quantifier": "every sequence of insertions, every queried point", "why_tests_cant": "all histories", "anchors": ["src/libkiter/algorithms/dse/buffer_sizing.cpp: addToSat, satContains, inForConeOf"]}
{"id": "C32", "title": "Knee-point search never misses a minimal feasible point", "statement": "After any sequence of recorded infeasible points, every storage distribution that is not below a recorded infeasible point lies above one of the current candidate (knee) points.", "quantifier": "every sequence of infeasible points, every distribution", "why_tests_cant": "all histories, infinite point space", "anchors": ["src/libkiter/algorithms/dse/buffer_sizing.cpp: KneeSet add/addCut, updateKneeSet"]}
{"id": "C33", "title": "Pointwise minimum distribution is the greatest lower bound", "statement": "makeMinimalSD returns the largest distribution below both arguments.", "quantifier": "every pair of distributions over the same channels", "why_tests_cant": "all pairs", "anchors": ["src/libkiter/algorithms/dse/buffer_sizing.cpp: makeMinimalSD"]}
{"id": "C34", "title": "Minimal step and minimal channel size", "statement": "The exploration step of a channel is the largest integer dividing all its rates (so buffer contents only move by multiples of it), and for a single-rate channel a buffer smaller than p+c-gcd(p,c)+t mod gcd(p,c) deadlocks while that size does not. (With several phases per side the computed size is not a lower bound.)", "quantifier": "all rates and initial tokens", "why_tests_cant": "all integers, infinite executions of the channel", "anchors": ["src/libkiter/algorithms/dse/buffer_sizing.cpp: findMinimumStepSz, findMinimumChannelSz"]}
{"id": "C35", "title": "Merged schedule helpers", "statement": "produce_sequence(n) returns the first n elements of the infinite sequence init ++ periodic^omega and get_next_execution_time(k) returns the start time of the k-th execution of the infinite periodic schedule.", "quantifier": "every schedule and every index", "why_tests_cant": "infinite sequences", "anchors": ["src/libkiter/algorithms/transformation/merging.cpp: produce_sequence, get_next_execution_time"]}
{"id": "C36", "title": "TDMA slot wait is exact", "statement": "findEventCycle returns the smallest non-negative wait after which the slot of the requesting node is active.", "quantifier": "all cycles, slots and table lengths", "why_tests_cant": "all integers", "anchors": ["src/libkiter/algorithms/scheduling/TDMAScheduler.cpp: findEventCycle"]}
{"id": "C37", "title": "TDMA mesh distance", "statement": "getDistance(src,dst) is one more than the number of mesh hops on a shortest walk between the two nodes (one cycle of injection), symmetric and satisfying the triangle inequality. True on square meshes, false on rectangular ones.", "quantifier": "all mesh sizes and node pairs", "why_tests_cant": "all sizes", "anchors": ["src/libkiter/algorithms/scheduling/TDMAScheduler.cpp: getDistance"]}
{"id": "C38", "title": "Mesh NoC generation: ids unique, neighbours correct", "statement": "For every mesh size, generated node ids are pairwise distinct, link ids are pairwise distinct and distinct from node ids, each router is linked in both directions with its own core and with exactly its grid neighbours.", "quantifier": "all mesh sizes", "why_tests_cant": "all sizes", "anchors": ["src/libkiter/models/NoC.cpp: generate, check_ids"]}
{"id": "C39", "title": "XY routing reaches its destination along a shortest path", "statement": "For every pair of cores of a mesh the computed route is a connected path from the source core to the destination core, goes first along X then along Y, and has Manhattan distance + 2 links.", "quantifier": "all mesh sizes, all pairs", "why_tests_cant": "all sizes", "anchors": ["src/libkiter/algorithms/mapping/xyRouting.cpp"]}
{"id": "C40", "title": "Link index encoding round-trips", "statement": "getMapIndexPair(getMapIndex(x,y)) = (x,y) for all nodes, so distinct links have distinct indices and never collide with node ids.", "quantifier": "all numbers of nodes and pairs", "why_tests_cant": "all integers", "anchors": ["src/libkiter/models/NoCGraph.cpp: getMapIndex, getMapIndexPair"]}
{"id": "C41", "title": "Communication modelling preserves the channel", "statement": "Replacing a channel by a chain of path nodes yields a chain that starts at the source with its production rates, ends at the target with its consumption rates, keeps the initial tokens, and has unit rates in between, so the graph stays consistent.", "quantifier": "every channel and every route length", "why_tests_cant": "all routes", "anchors": ["src/libkiter/algorithms/mapping/modelCommunications.cpp: addPathNode"]}
{"id": "C42", "title": "singleOutput terminates with at most one output per task", "statement": "For every graph the transformation terminates (it returns or reports an error). When it returns, the named task has at most one output, every added duplicator has exactly two outputs and one input, the duplicators form a tree below the named task, every other task keeps its outputs, and every task has as many inputs as before.", "quantifier": "every graph", "why_tests_cant": "termination over all graphs", "anchors": ["src/libkiter/algorithms/transformation/singleOutput.cpp"]}
{"id": "C43", "title": "Strongly connected components are exact", "statement": "computeSCCKosaraju returns a partition of the tasks in which two tasks are together exactly when each is reachable from the other.", "quantifier": "every graph", "why_tests_cant": "all graphs", "anchors": ["src/libkiter/algorithms/scc.cpp: computeSCCKosaraju, computeDFSStack, dfsTranspose"]}
{"id": "C44", "title": "Cycle detection", "statement": "has_cycles returns true exactly when the graph has a directed cycle of length at least two; self edges are not seen.", "quantifier": "every graph", "why_tests_cant": "all graphs", "anchors": ["src/libkiter/algorithms/analysis/cycle_detection.cpp: has_cycles"]}
{"id": "C45", "title": "Random generator only produces consistent graphs", "statement": "Whatever the random draws: a supported configuration yields a graph; its task and channel counts, phase counts, durations and rate totals are within the configured limits; every channel has one non-negative rate per phase and per initial phase; no loop is generated when loops are excluded; the graph satisfies the balance equations and its repetition vector exists.", "quantifier": "every sequence of random draws and configuration", "why_tests_cant": "all random sequences", "anchors": ["src/libkiter/generators/RandomGenerator.cpp: generate"]}
{"id": "C46", "title": "SDF3 rate text round-trips", "statement": "Writing a pair (initial rates, periodic rates) to SDF3 text and reading it back yields the same pair, for every non-empty periodic vector.", "quantifier": "all rate vectors", "why_tests_cant": "all vectors of all integers", "anchors": ["src/libkiter/printers/SDF3Wrapper.cpp: vectorAsStr, StringRate2Vectors, stringlist2tokenlist", "src/libkiter/commons/commons.h: split, toString, fromString"]}
{"id": "C47", "title": "Command line parameters apply to the following algorithm", "statement": "Parameters given by -p are attached to the next -a or -g; parameters left over at the end of the line are added to every algorithm (not to generators) without overriding its own; the last value given for a key counts. The algorithms run in the order given, each on the graph left by the previous one, up to the first unknown one; the exit code tells whether all were known.", "quantifier": "every argument list", "why_tests_cant": "all argument lists", "anchors": ["src/kiter/main.cpp: main"]}
{"id": "C48", "title": "deGroote linear constraint graph indices", "statement": "Each consumer execution depends on the producer execution that makes its last token available, and the iteration distance is non-negative and minimal. Completion times satisfy the constraints exactly when repeating them is a valid schedule, so the maximum cycle ratio is the best period of the graph and the same as the K-Iter result.", "quantifier": "all rates, markings, repetition counts and executions", "why_tests_cant": "all integers", "anchors": ["src/libkiter/algorithms/throughput/degroote.cpp: generate_LCG"]}
{"id": "C49", "title": "Strictly periodic schedules are valid", "statement": "Start times satisfying the constraints of the strictly periodic analysis give an infinite schedule in which no channel underflows and executions of a task do not overlap, and conversely. The reported period is the least one of such schedules; the approximate variant never reports a shorter one and neither beats the best period of the graph.", "quantifier": "all rates, markings, periods, executions", "why_tests_cant": "infinite schedule", "anchors": ["src/libkiter/algorithms/throughput/csdf_strictly_periodic.cpp"]}
{"id": "C50", "title": "K-periodic schedule expansion", "statement": "The schedule returned for a feasible period lists for each task exactly K*phases start times with period K*phases*Omega/N, and its infinite unrolling is the one the constraints talk about.", "quantifier": "every graph, K and period", "why_tests_cant": "infinite schedule", "anchors": ["src/libkiter/algorithms/throughput/kperiodic.cpp: period2scheduling"]}
{"id": "C51", "title": "Grouping helper builds the connected groups", "statement": "After any sequence of add(l,r,v) calls, no freed set is read and getall returns one set for each connected group of elements; the set of a group contains every value of the calls made on its elements. The last part fails for the calls that join two existing groups, whose value is lost.", "quantifier": "every sequence of additions", "why_tests_cant": "all histories", "anchors": ["src/libkiter/commons/GroupList.h: add, getall"]}
{"id": "C52", "title": "K-Iter reports the maximal throughput", "statement": "The throughput returned by the K-Iter computation is the maximal throughput of the graph: when it is positive, its inverse is the smallest graph period sustained by any valid schedule, periodic or not, and some K-periodic schedule for the returned periodicity vector reaches it; when it is not, the graph has no valid infinite schedule at all.", "quantifier": "all consistent graphs with non-reentrant tasks and non-negative durations, all infinite schedules of the graph", "why_tests_cant": "optimality compares against every infinite schedule; a test can only compare with another algorithm on some graphs", "anchors": ["src/libkiter/algorithms/throughput/kperiodic.cpp: compute_Kperiodic_throughput, updateEventGraph, updateVectorWithLocalNi, sameset"]}
{"id": "C53", "title": "Incremental event graph update equals regeneration", "statement": "After a change of the periodicity vector along a critical circuit, the incrementally updated event graph has exactly the constraints that generating the event graph from scratch for the new vector gives; when the vector does not change the update reports so.", "quantifier": "all graphs, periodicity vectors dividing the iteration counts, critical circuits", "why_tests_cant": "depends on every combination of changed tasks, self-edges, multi-edges and circuit order", "anchors": ["src/libkiter/algorithms/throughput/kperiodic.cpp: updateEventGraph, generateKPeriodicEventGraph"]}
{"id": "C54", "title": "Buffer exploration returns the whole Pareto front", "statement": "If the critical channels reported by the throughput analysis are complete (no distribution above a given one is faster unless some critical channel grows by a step) and no distribution exceeds the target throughput, then when the exploration stops, every distribution on the step lattice above the initial one is matched by a retained distribution that is no larger and, up to the comparison tolerance, no slower; retained distributions carry their analysed throughput and none dominates another.", "quantifier": "every analysis satisfying the assumption, every initial distribution, every distribution of the infinite lattice", "why_tests_cant": "compares the result with infinitely many distributions for every graph", "anchors": ["src/libkiter/algorithms/dse/dse.cpp: compute_csdf_dse main loop", "src/libkiter/algorithms/dse/buffer_sizing.cpp: isSearchComplete, minimizeStorageDistributions, getNextDistribution"]}
{"id": "C55", "title": "Buffer exploration terminates", "statement": "If some distribution of the lattice reaches the target throughput, the exploration stops after finitely many rounds, never asks an empty checklist for a distribution, and never analyses the same distribution twice.", "quantifier": "every analysis with complete critical channels, every initial distribution", "why_tests_cant": "termination over an infinite search space", "anchors": ["src/libkiter/algorithms/dse/dse.cpp: compute_csdf_dse main loop"]}
{"id": "C56", "title": "The durations of a task read back as set and add up", "statement": "After setVertexDuration with one duration per phase, getVertexDuration(v,k) is the k-th entry (cyclically), and getVertexTotalDuration(v) is the sum of the entries.", "quantifier": "every task, every list of durations, every phase", "why_tests_cant": "all duration vectors, including fractional ones", "anchors": ["src/libkiter/models/Dataflow.h: setVertexDuration, getVertexDuration, getVertexTotalDuration"]}
{"id": "C57", "title": "Random routing still takes a shortest route", "statement": "Whatever the random draws, if the random routing of a channel between two cores ends, the route is a connected path from the source core to the destination core with Manhattan distance + 2 links; it ends as soon as enough draws of each kind occurred.", "quantifier": "all mesh sizes, all pairs of cores, all sequences of draws", "why_tests_cant": "all draws", "anchors": ["src/libkiter/algorithms/mapping/randomRouting.cpp: randomRouting"]}
{"id": "C58", "title": "TDMA replay dates are a valid schedule", "statement": "In the table of dates printed by the TDMA replay, every packet starts computing only after all packets it depends on are delivered, computes for exactly its duration, leaves in a cycle of its own slot, never in the same cycle as another packet with the same source and destination, arrives after the travel time, and never lets a usable slot pass.", "quantifier": "every packet list, dependency structure, slot table and mesh, at every point of the replay", "why_tests_cant": "all packet lists and all interleavings of the event queue", "anchors": ["src/libkiter/algorithms/scheduling/TDMAScheduler.cpp: write_tdma_schedule", "src/libkiter/algorithms/scheduling/TDMAScheduler.h: isDepsDone, operator<"]}
{"id": "C59", "title": "TDMA replay ends exactly when dependencies are acyclic", "statement": "The replay of a well-formed packet list never reads outside its tables; it ends with all packets delivered when the dependencies have no cycle, and never ends when packets wait for each other.", "quantifier": "every packet list", "why_tests_cant": "termination over all inputs", "anchors": ["src/libkiter/algorithms/scheduling/TDMAScheduler.cpp: write_tdma_schedule"]}
{"id": "C60", "title": "Durations round-trip through SDF3 text", "statement": "Writing the initial and periodic execution times of a task to SDF3 text and reading them back yields the same lists, when the times are integers and the periodic list is non-empty.", "quantifier": "all lists of integer durations", "why_tests_cant": "The lists and the values are unbounded.", "anchors": ["src/libkiter/printers/SDF3Wrapper.cpp: vectorAsStr, readSDF3VertexTimings", "src/libkiter/commons/commons.cpp: splitSDF3List"]}
{"id": "C61", "title": "Merging lists the executions in schedule order", "statement": "Merging tasks along a schedule first lists their executions: each task's executions appear without gap and in order, each with the start the schedule gives it, the list is sorted by start, every task is executed at least once per repetition, and no execution left out starts before a listed one. The listing ends for every set of tasks with positive periods.", "quantifier": "all sets of tasks with periodic schedules", "why_tests_cant": "The number of tasks, the starts and the length of the list are unbounded.", "anchors": ["src/libkiter/algorithms/transformation/merging.cpp: mergeCSDFFromSchedule, get_next_execution_time"]}
{"id": "C62", "title": "A merged task moves the same tokens", "statement": "The rates of the merged task on a channel of one of its tasks are those of the executions it is made of, the durations likewise, and the merged graph is consistent when the original one is.", "quantifier": "all sets of tasks, schedules and channels", "why_tests_cant": "Depends on the whole execution sequence; unbounded rates, tasks and starts.", "anchors": ["src/libkiter/algorithms/transformation/merging.cpp: mergeCSDFFromSchedule, produce_sequence"]}
{"id": "C63", "title": "singleOutput keeps the graph consistent", "statement": "Replacing the outputs of a task by a tree of duplicators keeps the rates and initial tokens that its consumers see, so a solution of the balance equations of the old graph extends to the new one.", "quantifier": "every graph reachable through the interface and every task", "why_tests_cant": "all graphs, any number of outputs", "anchors": ["src/libkiter/algorithms/transformation/singleOutput.cpp"]}
{"id": "C64", "title": "Random generator: initial marking", "statement": "The tokens the generator puts on the channels of a generated graph are a non-negative multiple of each channel's granularity; tasks, channels and rates do not change; it returns only when the analysis reports a positive throughput, and it does return, with a graph that has a valid infinite schedule.", "quantifier": "every configuration, every sequence of draws, every analysis result", "why_tests_cant": "all random graphs and all rounds of the marking loop", "anchors": ["src/libkiter/generators/RandomGenerator.cpp: set_initial_marking, generate"]}
{"id": "C65", "title": "The cycle ratio solver returns an optimal circuit", "statement": "MinCycleRatio (MaxCycleRatio) terminates on every event graph whose circuits take time; a finite answer is the ratio of the returned circuit, which is a circuit of the graph, and no circuit of the graph has a smaller (larger) ratio; infinity is returned only when there is no circuit.", "quantifier": "all event graphs without circuit of zero duration, all weights and durations on a grid that the floating point epsilon resolves", "why_tests_cant": "the solver iterates over policies with a floating point tolerance and an iteration limit; the number of graphs and policies is unbounded", "anchors": ["src/libkiter/commons/howard_cycle_ratio.hpp: mcr_howard", "src/libkiter/models/EventGraph.h: MinCycleRatio, MaxCycleRatio"]}
{"id": "C66", "title": "The self-timed execution is the earliest schedule", "statement": "In the self-timed execution every execution lasts exactly its duration, and no valid schedule of the graph, with or without bounded buffers, starts any execution earlier; the start times form a valid schedule.", "quantifier": "every graph with guarded actors, every capacity assignment, every schedule, every execution", "why_tests_cant": "all infinite schedules, all executions", "anchors": ["src/libkiter/algorithms/throughput/symbolic_execution.cpp: computeComponentThroughput", "src/libkiter/algorithms/throughput/actor.cpp", "src/libkiter/algorithms/throughput/state.cpp"]}
{"id": "C67", "title": "The self-timed throughput is optimal and agrees with K-Iter", "statement": "A throughput reported by the self-timed execution is the largest that any schedule, periodic or not, reaches; a reported deadlock means that no schedule exists; K-Iter reports the same throughput.", "quantifier": "every connected consistent graph, every schedule", "why_tests_cant": "compares a simulation with all infinite schedules and two unrelated algorithms on all graphs", "anchors": ["src/libkiter/algorithms/throughput/symbolic_execution.cpp: computeComponentThroughput", "src/libkiter/algorithms/throughput/kperiodic.cpp: compute_Kperiodic_throughput"]}
{"id": "C68", "title": "The self-timed throughput computation terminates", "statement": "On every strongly connected consistent graph, and on every connected consistent graph with bounded buffers, the self-timed throughput computation stops, without division by zero when executions take time, and returns the maximal throughput (0 exactly when no schedule exists).", "quantifier": "every such graph, every capacity assignment", "why_tests_cant": "termination of a state-space exploration whose length has no useful bound", "anchors": ["src/libkiter/algorithms/throughput/symbolic_execution.cpp: computeComponentThroughput, computeComponentThroughputCycles", "src/libkiter/algorithms/throughput/state.cpp: addState, computeThroughput"]}
{"id": "C69", "title": "The self-timed throughput of a graph with several strongly connected components is the throughput of the whole graph", "statement": "compute_asap_throughput, called on a consistent graph with positive integer phase durations (at least two tasks, or one channel), returns; a positive result is the largest number of graph iterations per time unit that any valid schedule sustains, and a zero result means the graph has no valid schedule, whatever the number of strongly connected components.", "quantifier": "every consistent graph, every numbering of its tasks, every choice of rates, initial tokens and integer durations", "why_tests_cant": "optimality ranges over all schedules, the component decomposition is unbounded, and the result combines scaled per-component results whose correctness needs an argument about delaying components against each other", "anchors": ["src/libkiter/algorithms/throughput/symbolic_execution.cpp: compute_asap_throughput, computeComponentThroughput, generateSCCs", "src/libkiter/algorithms/scc.cpp", "src/libkiter/models/Dataflow.h: getVertexTotalDuration"]}
{"id": "C70", "title": "Buffer exploration returns the Pareto front of the true throughput", "statement": "For a consistent graph whose unbounded throughput is at least the comparison tolerance, the design space exploration with the K-periodic analysis stops; its result contains, for all channel capacities not below the computed starting capacities, a distribution that is no larger in total and reaches the throughput those capacities allow over all schedules (up to twice the tolerance); every reported throughput is the exact throughput of the reported capacities over all schedules, every reported size is the sum of the capacities, and no reported distribution dominates another.", "quantifier": "every consistent graph, all capacities, all schedules, every correct cycle ratio solver", "why_tests_cant": "The front ranges over an unbounded lattice of capacities, and each throughput over all schedules; tests compare a few graphs with a reference tool.", "anchors": ["src/libkiter/algorithms/dse/dse.cpp: throughput_buffering_tradeoff_dse", "src/libkiter/algorithms/dse/kperiodic.cpp: compute_Kperiodic_throughput_and_cycles"]}
{"id": "C71", "title": "Throughput is monotone in the capacities", "statement": "If every channel has at least the capacity it has in another distribution, the throughput over all schedules is at least that of the other distribution.", "quantifier": "all graphs, all pairs of comparable capacities, all schedules", "why_tests_cant": "Quantifies over all schedules and all capacities.", "anchors": ["src/libkiter/algorithms/dse/dse.cpp", "src/libkiter/algorithms/buffersizing/buffer_sizing.cpp"]}
{"id": "C72", "title": "The exploration starts low enough for SDF graphs", "statement": "For graphs with one phase per task and positive durations, no schedule exists when some channel has less than its starting capacity, so that the reported front covers all capacities with a positive throughput.", "quantifier": "all consistent SDF graphs, all capacities, all schedules", "why_tests_cant": "Absence of schedules for all smaller capacities cannot be shown by examples.", "anchors": ["src/libkiter/algorithms/buffersizing/buffer_sizing.cpp: findMinimumChannelSz", "src/libkiter/algorithms/dse/dse.cpp"]}
{"id": "C73", "title": "Periodic buffer sizes suffice", "statement": "Whatever solution the linear solver returns for the periodic buffer sizing, relaxed or integer, the buffer sizes the function computes from it (rounding included) are large enough: with these capacities the graph has a valid periodic schedule with the requested period, the one that starts the phases where the solution says, so its throughput is at least the inverse of the period.", "quantifier": "every consistent graph, every positive period, every solution of the program, every time and set of executions of the schedule", "why_tests_cant": "The schedule is infinite and the solution arbitrary; tests compare one total per graph.", "anchors": ["src/libkiter/algorithms/buffersizing/periodic.cpp: periodic_memory_sizing_csdf", "src/libkiter/algorithms/buffersizing.h: BufferSizingResult"]}
{"id": "C74", "title": "The periodic sizing decides feasibility", "statement": "The sizing program has a solution, with or without integer columns, exactly when the graph has a valid periodic schedule with the requested period and unlimited buffers.", "quantifier": "every consistent graph, every positive period, all periodic schedules", "why_tests_cant": "The absence of a schedule over all real starting times cannot be tested.", "anchors": ["src/libkiter/algorithms/buffersizing/periodic.cpp: periodic_memory_sizing_csdf", "src/libkiter/algorithms/buffersizing.h: BufferSizingResult"]}
{"id": "C75", "title": "The integer periodic sizing is optimal", "statement": "With an optimal integer solution the function reports the least total memory (capacity times token size, summed) for which a periodic schedule with the requested period exists, for cyclo-static graphs too; without integer columns the optimum of the relaxed program plus the initial tokens is a lower bound on that memory.", "quantifier": "every consistent graph, every positive period, all capacities, all periodic schedules", "why_tests_cant": "Optimality ranges over all capacities and all schedules.", "anchors": ["src/libkiter/algorithms/buffersizing/periodic.cpp: periodic_memory_sizing_csdf", "src/libkiter/algorithms/buffersizing.h: BufferSizingResult"]}
{"id": "C76", "title": "A valid sizing result means that the period is possible", "statement": "The periodic sizing reports a valid result only for a period for which the graph has a periodic schedule.", "quantifier": "every consistent graph, every positive period, every correct solver", "why_tests_cant": "Ranges over all graphs and periods.", "anchors": ["src/libkiter/algorithms/buffersizing/periodic.cpp: periodic_memory_sizing_csdf", "src/libkiter/algorithms/buffersizing.h: BufferSizingResult"]}
{"id": "C77", "title": "Buffer sizes for given offsets suffice and are minimal", "statement": "For offsets of the phases that keep the executions of each task apart, the fixed-offset sizing finds a solution exactly when a schedule with these offsets and this period exists; the buffer sizes it computes allow such a schedule, and with an optimal integer solution their total is the least memory of any schedule with these offsets.", "quantifier": "every consistent graph, every positive period, all such offsets, every solver answer, all capacities and schedules", "why_tests_cant": "Optimality and sufficiency range over all capacities and infinite schedules.", "anchors": ["src/libkiter/algorithms/buffersizing/periodic_fixed.cpp: compute_periodic_fixed_memory"]}
{"id": "C78", "title": "The offset generators deliver executions without overlap", "statement": "When each task alone fits in its period, the burst, average, Wiggers and min-max generators deliver offsets for all tasks, accepted by the check, such that the executions of each task do not overlap. The Wiggers and min-max generators stop with an error when a task with several phases does not fit. The strictly periodic generator reports failure exactly when a phase of a task with several phases is longer than the distance between two executions, and the integer sizing with its offsets decides whether a strictly periodic schedule exists and gives the least memory of one (tasks with one phase fitting in their period).", "quantifier": "every consistent graph, every positive period, every correct solver of the min-max programs", "why_tests_cant": "Ranges over all graphs, durations and periods.", "anchors": ["src/libkiter/algorithms/buffersizing/periodic_fixed.cpp: generateBurstOffsets", "src/libkiter/algorithms/buffersizing/periodic_fixed.cpp: generateAverageOffsets", "src/libkiter/algorithms/buffersizing/periodic_fixed.cpp: generateWiggersOffsets", "src/libkiter/algorithms/buffersizing/periodic_fixed.cpp: generateMinMaxOffsets", "src/libkiter/algorithms/buffersizing/periodic_fixed.cpp: generateStrictlyPeriodicOffsets", "src/libkiter/algorithms/buffersizing/periodic_fixed.cpp: checkOffsets", "src/libkiter/algorithms/buffersizing/periodic_fixed.cpp: speriodic_memory_sizing_csdf"]}
{"id": "C79", "title": "Sizing with generated offsets is sound", "statement": "With any offset policy, when each task alone fits in its period, the sizing terminates with a result, and a valid result has sizes large enough for a periodic schedule with the requested period; the total is the sum of sizes times token sizes.", "quantifier": "every consistent graph, every positive period, every policy, every feasible solver answer", "why_tests_cant": "Ranges over all graphs and infinite schedules.", "anchors": ["src/libkiter/algorithms/buffersizing/periodic_fixed.cpp: compute_fixed_offset_buffer_sizing"]}
{"id": "C80", "title": "Virtual buffers keep the period", "statement": "For a period with a strictly periodic schedule, adding virtual buffers (multiplier at least 1) keeps tasks and channels, bounds every channel by the computed size times the multiplier, and the resulting graph still has a strictly periodic schedule with this period.", "quantifier": "every consistent graph, every such period, every multiplier, every solver that finds feasible solutions", "why_tests_cant": "Ranges over all graphs and infinite schedules.", "anchors": ["src/libkiter/algorithms/buffersizing/periodic_fixed.cpp: add_vbuffers"]}
{"id": "C81", "title": "A valid strictly periodic sizing means that the period is possible", "statement": "The strictly periodic sizing reports a valid result only for a period with which the graph can be scheduled.", "quantifier": "every consistent graph, every positive period, every correct solver", "why_tests_cant": "Ranges over all graphs and periods.", "anchors": ["src/libkiter/algorithms/buffersizing/periodic_fixed.cpp: speriodic_memory_sizing_csdf", "src/libkiter/algorithms/buffersizing/periodic_fixed.cpp: generateStrictlyPeriodicOffsets"]}
{"id": "C82", "title": "Fixed-vector throughput commands report the best K-periodic throughput", "statement": "The throughput commands that analyse a graph for a fixed periodicity vector (1Periodic, 2Periodic, NPeriodic, EG1, EGN) report the exact optimum over K-periodic schedules: when the reported value is positive its inverse is the smallest period of a valid K-periodic schedule and the graph sustains it, otherwise no valid K-periodic schedule exists. The value never decreases when the vector is replaced by a multiple, never exceeds what K-Iter reports, and with the vector of repetition counts (NPeriodic, EGN) it equals it: it is the optimum over all schedules, or the graph deadlocks.", "quantifier": "every consistent graph without initial phases, every positive periodicity vector, every schedule (periodic or not)", "why_tests_cant": "Optimality quantifies over all schedules and all vectors; tests compare a few numbers on a few graphs.", "anchors": ["src/libkiter/algorithms/throughput/kperiodic.cpp: KSchedule, compute_1Kperiodic_throughput, compute_2Kperiodic_throughput, compute_NKperiodic_throughput", "src/libkiter/algorithms/scheduling/CSDF_KPeriodicScheduling.cpp: generateNPeriodicVector, generateKPeriodicVector, CSDF_1PeriodicThroughput, CSDF_NPeriodicThroughput"]}
{"id": "C83", "title": "The linear-programming scheduling commands compute the same periods as the event-graph methods, and return valid schedules", "statement": "For every supported graph, the commands LP1 and LPN report the smallest period of a valid 1-periodic (resp. N-periodic) schedule, which is the period reported by the event-graph commands for the same periodicity vector; REALLP1 reports the smallest period of a valid strictly periodic schedule, which is the period of the strictly periodic analysis; and the schedule they return is valid.", "quantifier": "All consistent graphs with non-reentrant tasks and no initial phases, all positive periodicity vectors, every optimal solution the LP solver may return.", "why_tests_cant": "A test compares two periods on one graph; the equality of the linear program with the infinite family of precedence constraints must hold for all rates, phases, markings and periodicity vectors, and for every optimal vertex the solver may pick.", "anchors": ["src/libkiter/algorithms/scheduling/CSDF_KPeriodicScheduling_LP.cpp: add_precedences_constraints, add_reentrancy_constraints, collect_lp_results, CSDF_KPeriodicScheduling_LP, CSDF_RealPeriodicScheduling_LP"]}
{"id": "C84", "title": "Normalization gives integer rates, decides consistency and is minimal", "statement": "When normalize returns true, getZi is positive for every task, every channel has one positive coefficient getAlpha that turns its two rate totals into the Zi of its two tasks, and the normalized rate of every phase and of every amount of tokens is a defined integer. On a graph in which every task has a channel it returns true exactly when the graph is consistent and false otherwise; on a connected graph the numbers found divide those of every other normalization; Zi times the repetition count is the same for every task.", "quantifier": "all graphs with positive rate totals, any number of phases and any initial tokens, all components and channel orders", "why_tests_cant": "consistency is a statement about all repetition vectors and minimality one about all other normalizations; tests only try some graphs", "anchors": ["src/libkiter/algorithms/normalization.cpp: rationalNormalize, check_validity, setNormalization, normalize", "src/libkiter/models/Dataflow.h: normalizeValue, normalizeUnknowValue, getNormIn, getNormOut, getNormMop"]}
{"id": "C85", "title": "A graph saved in an SDF3 file and loaded again is the same graph", "statement": "For every well-formed graph, generateSDF3XML succeeds and wrapSDF3Dataflow accepts the document it made. The loaded graph has the same names, tasks, types, phases, initial phases, durations, channels, rates, initial tokens and token sizes, in the same order. Only the identifiers of the channels and the names of the ports change. A second save and load changes nothing else either.", "quantifier": "all well-formed graphs with any number of tasks, channels, phases and initial phases; any behaviour of the XML library on empty attributes", "why_tests_cant": "quantifies over all graphs; the reader finds the ports by names the writer built from identifiers, and interprets some channels as reentrancy", "anchors": ["src/libkiter/printers/SDF3Wrapper.cpp: generateSDF3XML, writeChannel, writeLoopbackChannel, writeLoopbackPorts, wrapSDF3Dataflow, checkForReentrancy, readSDF3VertexPorts, readSDF3Timings, readSDF3Channel"]}
{"id": "C86", "title": "The critical channels returned with bounded buffers are the only ones worth enlarging", "statement": "With SYMB_EXEC_CORRECTED, the self-timed analysis of a graph with given channel sizes always returns its critical channels once it has found the throughput or a deadlock, and they are complete: sizes that agree with the given ones on the critical channels give no better throughput, and still no schedule at all if the analysis found a deadlock, whatever the sizes of the other channels. From the recorded dependencies it returns exactly the channels that lie on a cycle of dependencies.", "quantifier": "all consistent connected graphs in which every task has an input or bounded output channel, all phases, durations, initial tokens and channel sizes, all other sizes of the channels that are not reported", "why_tests_cant": "a test can enlarge some channels by some amounts on some graphs; the claim is about every other choice of sizes, of which there are infinitely many, and about all schedules", "anchors": ["src/libkiter/algorithms/throughput/symbolic_execution.cpp: computeComponentThroughputCycles, computePeriodicStorageDeps, computeDeadlockStorageDeps, compute_asap_throughput_and_cycles", "src/libkiter/algorithms/throughput/actor.cpp: computeCausalDeps", "src/libkiter/algorithms/dse/abstract_dep_graph.cpp: computeStorageDependenciesSCC, findStorageDepsFromSCC, computeStorageDependencies, computeCycles"]}
{"id": "C87", "title": "The exploration with the self-timed analysis returns the Pareto front of all schedules", "statement": "With SYMB_EXEC_CORRECTED, throughput_buffering_tradeoff_dse stops, and its result is the trade-off between storage and throughput of the graph over all schedules: for any channel sizes not below the initial ones, some retained distribution is no larger in total and reaches the best throughput of these sizes up to twice the comparison tolerance; the throughput recorded for every retained distribution is exactly the best one with these sizes; and no retained distribution dominates another. With one phase per task no sizes below the initial ones have a schedule, so the result covers all sizes.", "quantifier": "all consistent connected graphs with positive integer durations, all phases, rates and initial tokens, all channel sizes, all valid schedules", "why_tests_cant": "the property compares the result with infinitely many size distributions and, for each, with all schedules; the number of rounds is not bounded by anything known in advance", "anchors": ["src/libkiter/algorithms/dse/dse.cpp: throughput_buffering_tradeoff_dse", "src/libkiter/algorithms/throughput/symbolic_execution.cpp: compute_asap_throughput_and_cycles, compute_asap_throughput", "src/libkiter/algorithms/dse/buffer_sizing.cpp: StorageDistributionSet, findMinimumStepSz, findMinimumChannelSz"]}
{"id": "C88", "title": "The knee-point search keeps the result of the buffer exploration", "statement": "With the parameter B_M_OPT the buffer exploration starts from the points a search by knee points leaves. It still returns the Pareto front of throughput and storage whenever it returns (in the default mode, where only the feedback edges are considered); in particular a smallest distribution that reaches the target is among the returned ones.", "quantifier": "every consistent graph, every monotone analysis with complete critical channels, every initial distribution and tolerance, every number of rounds", "why_tests_cant": "The search cuts the space by infeasible points and knees; that no distribution is cut away wrongly concerns all distributions and all sequences of analysed points.", "anchors": ["src/libkiter/algorithms/dse/base_monotonic_optimisation.cpp: base_monotonic_optimised_symbexec_throughput_dse, select", "src/libkiter/algorithms/dse/buffer_sizing.cpp: createPoint, StorageDistributionSet::add, addCut", "src/libkiter/algorithms/dse/dse.cpp: throughput_buffering_tradeoff_dse"]}
{"id": "C89", "title": "Strictly periodic scheduling returns a valid schedule of least period", "statement": "The schedule computed by the SPeriodicScheduling command has one start per task and one execution every period/N; expanded to all executions it never overlaps executions of a task and never consumes missing tokens; its period is the least of all strictly periodic schedules, and no strictly periodic schedule of that period with non-negative starts starts any task earlier. The critical channels it returns are those of the limiting circuit.", "quantifier": "every consistent graph without initial phases, every exact answer of the cycle ratio solver, every execution index, every competing strictly periodic schedule", "why_tests_cant": "validity ranges over infinitely many executions and optimality over all schedules of all periods", "anchors": ["src/libkiter/algorithms/scheduling/CSDF_SPeriodicScheduling.cpp: CSDF_SPeriodicScheduling", "src/libkiter/algorithms/throughput/csdf_strictly_periodic.cpp: generate_csdf_strictly_periodic_event_graph", "src/libkiter/models/EventGraph.h: computeStartingTimeWithOmega"]}
{"id": "C90", "title": "The chart of a schedule shows every execution where it is", "statement": "The ASCII chart printed for a schedule has, for each task, '@' in column x exactly when an execution starts at time x, '#' exactly when one started before x is still running, and a space otherwise, for every line length.", "quantifier": "every schedule (initial and periodic starts) with integral times and positive integral durations whose executions do not overlap, every line length, every column", "why_tests_cant": "the chart repeats a drawn period for arbitrarily long lines; only an induction over periods shows that all columns agree with the infinite schedule", "anchors": ["src/libkiter/models/Scheduling.cpp: asASCII, asASCIINewNew"]}
{"id": "C91", "title": "The ASAP schedule is the self-timed execution", "statement": "The schedule printed by the ASAPScheduling command consists of the start times of the self-timed execution: initial starts up to a recurrent state, then periodic ones; expanded to all executions it never overlaps executions of a task, never consumes missing tokens, and no valid schedule starts any execution earlier. The command returns for every strongly connected, consistent graph with positive durations, and reports throughput 0 exactly for a deadlock.", "quantifier": "every strongly connected consistent graph, every execution index, every competing valid schedule; every graph with several components for the composition", "why_tests_cant": "the printed lists are finite but stand for infinitely many executions; that the cut into initial and periodic part is right can only be shown for all runs", "anchors": ["src/libkiter/algorithms/throughput/symbolic_execution.cpp: computeComponentThroughputSchedule, ASAPScheduling"]}
{"id": "C92", "title": "The periodic scheduling commands return valid schedules of least period", "statement": "The schedule returned by the K-periodic scheduling command has, for each task, K times its number of phases starts and a period; expanded to all executions it never overlaps executions of a task and never consumes missing tokens; its period is the least that any schedule, periodic or not, sustains; no valid K-periodic schedule of the same vector and period with non-negative starts starts any execution earlier. The 1-periodic command does the same with the least period of all 1-periodic schedules. Both return a schedule whenever one exists, and none otherwise.", "quantifier": "every consistent graph without initial phases, every exact answer of the cycle ratio solver, every execution index, every competing schedule", "why_tests_cant": "validity ranges over infinitely many executions and optimality over all schedules of all periods", "anchors": ["src/libkiter/algorithms/scheduling/CSDF_KPeriodicScheduling.cpp: CSDF_1PeriodicScheduling, CSDF_KPeriodicScheduling", "src/libkiter/algorithms/throughput/kperiodic.cpp: period2scheduling, period2Scheduling"]}
{"id": "C93", "title": "The exploration of buffer sizes by periodic schedules ends, and prints the trade-off between memory and period", "statement": "For a graph whose 1-periodic throughput F is positive, PeriodicDSE ends. Each line it prints holds a period and a memory size for which the graph has a periodic schedule of that period within that memory. With integer sizing the size is the least memory for the period, the lines go from less memory and longer periods to more memory and shorter periods, and every periodic schedule with bounded channels and a period of at most 5000/F is matched by a line that needs no more memory and has a throughput at most F/5000 lower.", "quantifier": "every graph, every sizing function, every answer of a correct solver, every competing capacity and periodic schedule", "why_tests_cant": "termination and completeness range over all sizing functions and a continuum of periods", "anchors": ["src/libkiter/algorithms/dse/periodic.cpp: compute_csdf_dse_from_function, compute_csdf_dse_periodic, compute_csdf_dse_speriodic"]}
{"id": "C94", "title": "The untimed execution completes exactly the live graphs", "statement": "The SymbolicExecution command executes every task its number of times in the repetition vector, one execution at a time, each only when its inputs hold the tokens it needs. It ends and succeeds exactly when the graph can execute a complete iteration, that is when the graph is live, and the channels then hold their initial tokens again; otherwise it reports a failure.", "quantifier": "every consistent graph, every order in which an iteration can be executed, every schedule", "why_tests_cant": "liveness is about all execution orders and infinite schedules; a test runs one graph", "anchors": ["src/libkiter/algorithms/symbolic_execution.cpp: algorithms::symbolic_execution"]}
{"id": "C95", "title": "The packet trace is a complete and correctly ordered description of the iterations", "statement": "The trace printed by SymbolicExecutionWP holds, for complete iterations of the graph executed one task at a time, one computation per execution with the duration of the task and, for each output channel, packets of the requested size that add up to the tokens produced. Packet numbers are 0, 1, 2, ... in order and a line only waits for lines before it. A computation waits, directly or not, for the earlier computations of its task, for those of its producers, and for the packets that carry its tokens. The command ends for every live graph of single-phase tasks.", "quantifier": "every consistent graph of single-phase tasks, every packet size, every number of iterations, every pair of executions", "why_tests_cant": "the ordering is about all pairs of lines of traces of any length", "anchors": ["src/libkiter/algorithms/symbolic_execution.cpp: algorithms::symbolic_execution_with_packets, print_packet_line"]}
{"id": "C96", "title": "Back-pressure sizes sustain the period asked for", "statement": "BackPressureSizing takes a period and prints the sizes of the channels that its linear program gives. With buffers of these sizes, the graph has a schedule that never overflows them and sustains the period.", "quantifier": "every consistent graph, every period no shorter than the tasks need, every solution of the linear program", "why_tests_cant": "the sizes are claimed for infinite schedules of any graph and any period; a run only prints numbers", "anchors": ["src/libkiter/algorithms/buffersizing/backpressure.cpp: algorithms::compute_backpressure_memory_sizing"]}
{"id": "C97", "title": "CycleCount prints every simple cycle exactly once", "statement": "The CycleCount command ends on every graph and prints every simple cycle of the graph exactly once, as the sequence of its tasks starting from the one of least identifier; channels in parallel give different cycles. The number printed is the number of simple cycles.", "quantifier": "every graph, every simple cycle of any length", "why_tests_cant": "the number of cycles is exponential in the size of the graph, and the search skips blocked tasks: that it misses none is an invariant of the whole search", "anchors": ["src/libkiter/algorithms/analysis/cycle_detection.cpp: algorithms::find_simple_cycles, find_simple_cycles_scc, unblock, find_smallest_index, generate_scc, generate_subgraph"]}
{"id": "C98", "title": "Cleaning the constraint graph does not change de Groote's throughput", "statement": "The deGrooteCleanThroughput command ends on every graph that deGrooteThroughput accepts and prints the same throughput: the cleaning only removes constraints, none of a circuit, and stops with no event left that has constraints on one side only.", "quantifier": "every one-phase graph with executions one at a time, every number of cleaning passes needed", "why_tests_cant": "the number of passes depends on the length of the chains in the graph, and a constraint wrongly removed matters only if it is on the critical circuit", "anchors": ["src/libkiter/models/EventGraph.h: models::EventGraph::FullConnectionned, removeConnectedEdges", "src/libkiter/algorithms/throughput/degroote.cpp: algorithms::clean_LCG, compute_deGrooteClean_throughput"]}
{"id": "C99", "title": "Routes of the bufferless mapping are shortest", "statement": "Between any two different cores of a mesh, and whatever the utilisation of the links, findPathDijkstra returns a route from the first core to the second with the least possible number of links; each link is the least used of those that end a route as short to the same node. findLowContentionPath does the same among the links used at most HWLIMIT times and returns an empty list exactly when there is no such route. getPath returns, among the shortest routes of a square mesh, one whose most used link is used the least.", "quantifier": "every mesh size, every pair of cores, every table of link utilisations; findPathDijkstra and getPath also on any directed network", "why_tests_cant": "the number of routes and utilisation tables is unbounded; optimality compares with all the other routes", "anchors": ["src/libkiter/models/NoCGraph.cpp: NoCGraph::findPathDijkstra, findLowContentionPath, findLeastCostPath, findPathCost", "src/libkiter/models/NoCGraph.h: NoCGraph::getPath, getPathLength, getMapIndex, clear", "src/libkiter/algorithms/mapping/bufferless_utils/GraphMapper.h: algorithms::GraphMapper::dijkstra_findPaths"]}
{"id": "C100", "title": "Throughput of graphs with reentrant tasks", "statement": "When some tasks are reentrant (several executions of them may run at a time, started in order), no schedule of the graph is faster than the throughput K-Iter reports; a deadlock reported is one; K-Iter ends with an answer; and where the answer needs one execution per task and period, or the graph is homogeneous, it is reached by a schedule. Making tasks reentrant (RemoveReentrancy) changes the chosen tasks only, fails exactly for unknown tasks, and loses no schedule.", "quantifier": "every consistent graph whose reentrant tasks have phases of equal duration, every schedule of it, every exact solver of the critical circuit, every list of tasks", "why_tests_cant": "optimality compares with all the infinite schedules; graphs and marking are unbounded", "anchors": ["src/libkiter/algorithms/throughput/kperiodic.cpp: generateReentrancyConstraints, KPeriodic_ThroughputwithMaxDuration, kperiodic throughput loop", "src/libkiter/algorithms/transformation/remove_reentrancy.cpp: algorithms::transformation::remove_reentrancy", "src/libkiter/printers/SDF3Wrapper.cpp: reading of tasks (reentrancy factor 0 unless a one-token self-loop exists)", "src/libkiter/models/Dataflow.h: setReentrancyFactor, getReentrancyFactor"]}
{"id": "C101", "title": "No timing anomalies: edits move the throughput the right way", "statement": "Shortening phases, adding initial tokens and removing channels or tasks never lowers the throughput K-Iter reports. Multiplying all durations by q divides it by q. The order of tasks and channels, their ids, the unit in which the tokens of a channel are counted, the initial tokens beyond a multiple of the granularity of the rates, and the exact solver used do not change it, nor the deadlock verdict.", "quantifier": "every pair of consistent graphs related by such edits, every exact solver of the critical circuit on either side", "why_tests_cant": "pairs of graphs are unbounded, and the intermediate periodicity vectors of the two runs are unrelated", "anchors": ["src/libkiter/algorithms/throughput/kperiodic.cpp: KPeriodic throughput loop, generateKPeriodicEventGraph, generateKPeriodicConstraint", "src/libkiter/models/Dataflow.h: setVertexDuration, setPreload, removeEdge, getFineGCD"]}
{"id": "C102", "title": "The K-periodic scheduling of the bufferless commands is valid and optimal", "statement": "BufferlessKPeriodicScheduling prints a throughput and starting times. The starting times are a valid schedule with that throughput, the earliest for its periodicities. Without options the throughput is the best of all valid schedules, and a throughput that is not positive means that the graph deadlocks. The command ends whatever the options.", "quantifier": "every consistent graph, every combination of stop_at_first and get_previous, every exact solver of the critical circuit", "why_tests_cant": "the periodicity vectors met and the event graphs are unbounded, and optimality compares with all infinite schedules", "anchors": ["src/libkiter/algorithms/scheduling/bufferLessAwareScheduling.cpp: bufferless_kperiodic_scheduling", "src/libkiter/algorithms/throughput/kperiodic.cpp: KScheduleBufferLess"]}
{"id": "C103", "title": "The solver interface hands over the described program and returns its solution", "statement": "A caller describes a linear program with addRow, addColumn and addCoef, calls solve and reads values by name. The calls are accepted exactly when rows have distinct names and coefficients name declared rows and columns. The problem given to GLPK has the same solutions and the same objective as the described one. When GLPK reports an optimum, the values read are an optimum of the described program; when it reports that there is none, solve returns false and there is none.", "quantifier": "every sequence of calls, every name, every coefficient, every answer of GLPK that meets its contract, the three linear methods", "why_tests_cant": "names, sizes and coefficients are unbounded, and sameness of programs ranges over all rational points", "anchors": ["src/libkiter/lp/glpsol.h: GLPSol::addRow, addColumn, addCoef, fastAddCoef", "src/libkiter/lp/glpsol.cpp: generateGLPKProblem, solve, getValue, getIntegerValue, rowIsReach, writeMPSProblem"]}
{"id": "C104", "title": "Exact throughput commands agree, and no periodic command reports more", "statement": "On a consistent graph with positive durations, KPeriodicThroughput, NKPeriodicThroughput, EGN, KPeriodicScheduling, BufferlessKPeriodicScheduling, LPN, deGrooteThroughput, deGrooteCleanThroughput and the self-timed execution report the same throughput whenever they report one, and one finds a deadlock only when the others do. 1PeriodicThroughput, 2PeriodicThroughput, any other fixed vector, LP1, REALLP1, SPeriodicThroughput and ASPeriodicThroughput never report more. Strictly periodic throughputs are at most 1-periodic ones.", "quantifier": "every graph with positive durations, every pair of commands, every vector, all correct solvers, every number of steps of the self-timed execution", "why_tests_cant": "a test compares the commands on a few graphs only; that they agree is a statement about all graphs and all schedules", "anchors": ["src/libkiter/algorithms/throughput/kperiodic.cpp", "src/libkiter/algorithms/throughput/degroote.cpp", "src/libkiter/algorithms/throughput/symbolic_execution.cpp", "src/libkiter/algorithms/throughput/csdf_strictly_periodic.cpp", "src/libkiter/algorithms/schedulings.h"]}
{"id": "C105", "title": "The slowest component decides the throughput; without circuits, the busiest task", "statement": "When the tasks are split into components such that no channel leads back from a later to an earlier component, the exact throughput commands report the throughput of the slowest component, and a deadlock exactly when a component deadlocks. For every periodicity vector the possible periods of the graph are those possible for all components. No schedule has a period shorter than the busy time of a task in one iteration; in a graph without circuits this is the only limit, for every vector, and no such graph deadlocks.", "quantifier": "every consistent graph with positive durations, every such split into components, every vector, all correct solvers", "why_tests_cant": "a statement about all schedules of all graphs; tests run a few graphs", "anchors": ["src/libkiter/algorithms/throughput/kperiodic.cpp", "src/libkiter/algorithms/throughput/1periodic.cpp", "src/libkiter/algorithms/schedulings.h"]}
{"id": "C106", "title": "Generated LTE graphs", "statement": "genLTESDF makes one task per thread of each of the four kinds and a channel without tokens between any two tasks of neighbouring kinds. With at least one task of each of the two middle kinds the graph is consistent, every task is executed once per iteration, it does not deadlock, and its throughput is 1/392504 as soon as there is a miwf task, whatever the numbers of threads (1/353448 without).", "quantifier": "all values of the four parameters with positive cwac and ifft, given or left out; every exact command, every vector", "why_tests_cant": "the parameters range over all integers; the throughput of large instances cannot be computed in a test", "anchors": ["src/libkiter/generators/LTEGeneator.cpp", "src/libkiter/generators/LTEGenerator.h"]}
{"id": "C107", "title": "PrintKiter prints code that rebuilds the graph", "statement": "The C++ function printed by PrintKiter builds the graph it was printed for: running its statements on a new graph passes every check of the library, and gives the same tasks (ids, names, phases, initial phases, durations) in the same order and the same channels (ends, names, rates, initial rates, initial tokens) in the same order; the function returns this graph.", "quantifier": "all graphs that some history of library calls builds and whose tasks and channels are completely described", "why_tests_cant": "the printed program must be right for every graph, with any number of tasks, phases and channels, and any history of edits before", "anchors": ["src/libkiter/printers/stdout.cpp: generate_kiter", "src/libkiter/models/Dataflow.h"]}
{"id": "C108", "title": "remove takes away the listed tasks and their channels, nothing else", "statement": "The command remove, given names and ids of tasks, leaves the graph without these tasks and without the channels that one of them writes or reads; all other tasks and channels keep their order and their properties, and each channel stays between the same two tasks although the positions of tasks change. It succeeds exactly when the graph may be changed, every listed name and id belongs to a task, and no task is listed twice.", "quantifier": "all graphs that some history of library calls builds, all lists of (non-empty) names and of ids", "why_tests_cant": "the positions of tasks shift with each removal; which channel ends must be corrected depends on the whole history", "anchors": ["src/libkiter/algorithms/transformation/bug_explorer.cpp: remove_task", "src/libkiter/models/Dataflow.h: removeVertex"]}
{"id": "C109", "title": "Creating a network, placing the tasks and routing the channels work together", "statement": "createNoC makes the smallest square mesh, at least 2 by 2, with as many cores as tasks. When randomMapping (any random values, parameters that name cores) and xyRouting follow, every task is on a core, the one given by its parameter if it has one, and every channel has a shortest route between the cores of its tasks. moduloMapping on a graph with ids 1 to n gives each task a node of its own (these are routers, see C39).", "quantifier": "all numbers of tasks, all lists of channels, all parameters and random values", "why_tests_cant": "random placement and unbounded numbers of tasks", "anchors": ["src/libkiter/algorithms/mapping/createNoC.cpp", "src/libkiter/algorithms/mapping/randomMapping.cpp", "src/libkiter/algorithms/mapping/moduloMapping.cpp", "src/libkiter/algorithms/mapping/xyRouting.cpp"]}
{"id": "C110", "title": "The repetition vector on machine integers", "statement": "Computed with 64-bit long and 32-bit int, the repetition vector is the one of the mathematical computation: no operation overflows as long as Q*Q and Q*R*P fit in a long, where Q bounds the entries of the vector, R (an int) bounds the sum of the rates of each channel end and P is the least common multiple of the numbers of phases. An inconsistent graph is reported as inconsistent when (R*P)^(number of tasks) fits in a long. Whatever the sizes, if no operation overflows and rate sums fit in an int, the answer is the mathematical one.", "quantifier": "every graph with non-negative rates, every bound", "why_tests_cant": "overflow depends on the order in which fractions are built along channels, for every graph; tests use small rates", "anchors": ["src/libkiter/models/repetition_vector.cpp: computeRepetitionVector, calcFractionsConnectedActors, calcRepetitionVector", "src/libkiter/models/Dataflow.h: setEdgeInPhases, setEdgeOutPhases", "src/libkiter/commons/commons.h: Fraction"]}
{"id": "C111", "title": "From the file to the throughput", "statement": "kiter -f file.xml -a KPeriodicThroughput on a file whose graph has no initial phases, positive durations and no reentrant task reports the best throughput of the graph that the file describes: the inverse of the least time per iteration over all schedules, for the smallest iteration, and a throughput that is not positive exactly when there is no schedule. It answers for consistent graphs and only for them. A graph saved with PrintXML and analysed from the file gets its own throughput. With reentrant tasks, no schedule is faster than reported.", "quantifier": "every document that the reader accepts, every graph saved", "why_tests_cant": "the claim crosses the reader, the repetition vector and the analysis, and compares with every schedule of every graph", "anchors": ["src/libkiter/printers/SDF3Wrapper.cpp: wrapSDF3Dataflow, generateSDF3XML", "src/libkiter/models/repetition_vector.cpp: computeRepetitionVector", "src/libkiter/algorithms/throughput/kperiodic.cpp: compute_Kperiodic_throughput", "src/kiter/main.cpp: main"]}
{"id": "C112", "title": "The bufferless mapping gives each task its own core and each channel a shortest route", "statement": "When BufferlessNoCMapAndRoute completes on a graph whose tasks were not mapped, every task is mapped to a core of the mesh, no two tasks to the same core, and every channel has a route of consecutive links from the core of its source to the core of its target with the least possible number of links. It completes on every graph in which each task has a channel to another one.", "quantifier": "every graph, every mesh size, every order in which the priority queue gives the tasks, every graph that decides the order", "why_tests_cant": "the cores and routes depend on all the earlier ones; the number of graphs, meshes and queue orders is unbounded", "anchors": ["src/libkiter/algorithms/mapping/bufferless_utils/GraphMapper.h: GraphMapper::taskAndNoCMapping, dijkstra_mapping, dijkstra_findPaths, setmap", "src/libkiter/algorithms/mapping/BufferlessNoCMapAndRoute.cpp: BufferlessNoCMapAndRoute, generateEdgesMap, updateNetworkOnChipModel", "src/libkiter/models/NoCGraph.h: NoCGraph::clear, getMapIndex, getPathLength"]}
{"id": "C113", "title": "BufferlessNoCMapAndRoute orders the tasks of every live graph and places them all", "statement": "The command orders the tasks by their first executions in an iteration, sets aside channels so that those left make no circuit, and then places every task. A channel is set aside only if its target leads to a circuit. On every graph that can execute an iteration it completes with each task on its own core and each channel on a shortest route.", "quantifier": "every graph, every mesh size, every order in which the priority queue gives the tasks", "why_tests_cant": "three depth-first searches, the enumeration of all circuits and an untimed execution of unbounded length interact; graphs and their circuits are unbounded", "anchors": ["src/libkiter/algorithms/mapping/BufferlessNoCMapAndRoute.cpp: generate_task_order, DFSUtil_PgmOrder, removeCycleEdges, graphProcessing, BufferlessNoCMapAndRoute", "src/libkiter/algorithms/mapping/bufferless_utils/SCCFinder.h: SCCFinder::printSCCs, fillOrder, DFSUtil, getTranspose, my_dfs, updateAncestorsCycle"]}
{"id": "C114", "title": "The expanded graph of PartialExpansion states the precedences of the dataflow graph", "statement": "For an SDF graph and a number of executions per task, start dates of the first executions meet every constraint of the graph that PartialExpansion prints if and only if repeating them gives a schedule in which every task starts its executions in order and no execution starts before the executions whose tokens it needs have ended.", "quantifier": "all graphs with one phase per task, all numbers of executions per task, all start dates and all periods", "why_tests_cant": "the constraints speak of infinitely many executions; tests only look at the printed text of a few graphs", "anchors": ["src/libkiter/algorithms/experiments/expansion_experiment.cpp: generate_expansion, generatePeriodicityVector", "src/libkiter/algorithms/experiments/ExpansionGraph.cpp: generate_E1_Edges, generate_E2_Edge, generate_E3_Edges, generate"]}
{"id": "C115", "title": "A software-controlled NoC schedule that is accepted has no two transfers starting together on a link", "statement": "SoftwareControlledNoCBufferless stops when its search for conflicts returns nothing; then two transfers that share a link and come from different tasks never start at the same date, for ever. The test on two transfers (isConflictPresent) answers yes exactly when the two periodic sequences of starts have a common date, and what the search returns otherwise is such a pair.", "quantifier": "all periods, start dates, repetition numbers, all sets of transfers per link, all executions", "why_tests_cant": "a common start may happen arbitrarily late; it is a question of number theory that running a few periods cannot settle", "anchors": ["src/libkiter/algorithms/software_noc.cpp: isConflictPresent, gcdExtended, checkForConflicts, getPrevAndNextVertex, software_noc_bufferless"]}
{"id": "C116", "title": "The bufferless scheduling puts in sequence all transfers that compete at a router", "statement": "Before it schedules, BufferlessNoCScheduling collects the transfers of every router into bags and merges each bag into one task. Two transfers that use the same input or the same output link of a router are in the same bag, directly or through others; a bag never mixes routers and holds only transfers tied by shared links.", "quantifier": "all networks, all mapped graphs whose communications have been modelled by link and router tasks, all orders of the tasks", "why_tests_cant": "whether a transfer is left out depends on the order in which the transfers of a router are visited", "anchors": ["src/libkiter/algorithms/scheduling/BufferlessNoCScheduling.cpp: build_router_xbar_usage, get_overlaps", "src/libkiter/algorithms/mapping/modelCommunications.cpp: build_router_xbar_usage, get_overlaps", "src/libkiter/commons/GroupList.h: add, getall"]}
{"id": "C117", "title": "An event graph is split into exactly its strongly connected components", "statement": "models::StrongConnection returns one event graph per strongly connected component: two events are in the same graph exactly if each is reached from the other by constraints; every graph has exactly the events of its component and exactly the constraints between two of them, unchanged. A constraint is kept exactly if it lies on a circuit. The call never fails.", "quantifier": "all event graphs, with any number of events and constraints, parallel constraints and loops", "why_tests_cant": "the recursion of Tarjan's algorithm is right because of an invariant over all call histories", "anchors": ["src/libkiter/models/EventGraph.cpp: StrongConnect, StrongConnection", "src/libkiter/models/EventGraph.h: setSCC, getSCC, addEvent, addEventConstraint, getConstraint, getVertexByEvent"]}
{"id": "C118", "title": "Modelling software-controlled transfers keeps rates, tokens and consistency", "statement": "When SoftwareControlledNoCBufferless replaces a channel by its route, the chain has the rates and the initial tokens of the channel, and the graph is consistent with the same repetitions. When a task has several outputs, it gets one sender: a task that takes one token in each phase and sends it to exactly one destination, with the least number of phases; each destination receives exactly the tokens that the task produced for it, and the graph stays consistent with the same repetitions.", "quantifier": "all graphs built through the interface, all routes, rates, initial tokens and numbers of outputs", "why_tests_cant": "the shape of the chains and the number of phases grow with the routes and the rates; a wrong phase shows only for some combination of rates", "anchors": ["src/libkiter/algorithms/software_noc.cpp: addPathNode, resolveSrcConflicts, removeAllEdgesVertex, gcdExtended"]}
{"id": "C119", "title": "Building the K-periodic event graph does not overflow", "statement": "If for every channel the initial tokens, the rate step and twice what each end moves in its initial phases and K periods add up to less than 2^63, and the rates of a period add up to less than 2^31, then no 64-bit operation overflows when the event graph of a K-periodic schedule is built, and the graph is the one of exact arithmetic. Rounding down to a multiple is exact although it goes through a floating-point quotient, if that has 64 significant bits.", "quantifier": "all graphs, rates, initial tokens and periodicity vectors within the bounds, and all roundings with 64 significant bits", "why_tests_cant": "overflow and rounding appear only for particular large values, on some platforms only", "anchors": ["src/libkiter/algorithms/throughput/kperiodic.cpp: generateKPeriodicConstraint, generateKperiodicSelfloop, generateKPeriodicEventGraph", "src/libkiter/commons/commons.h: floor", "src/libkiter/models/Dataflow.h: setEdgeInPhases, setEdgeOutPhases"]}
{"id": "C120", "title": "Execution over a network with time slots", "statement": "In the execution simulated by So4Scheduling every execution starts after the arrival of what it consumes, where what an execution produces leaves at the first date of the slot of its channel and arrives after one time unit per link of its route; executions of a task do not overlap, no token is lost or made, and the starts listed in the result are starts of that execution. The throughput reported is that of the execution, and a graph that cannot start is reported as a deadlock. The last two fail: states are compared without the tokens on their way and the position in the frame, and a deadlock makes the command run for ever.", "quantifier": "all graphs with integer durations, all tables of slots, all routes, any number of passes of the loop", "why_tests_cant": "needs every interleaving of slots, routes and executions, and unbounded runs", "anchors": ["src/libkiter/algorithms/throughput/so4_noc.cpp: computeComponentSo4Schedule", "src/libkiter/algorithms/throughput/actor.cpp: Actor::execEndWithMod", "src/libkiter/algorithms/throughput/state.cpp: State::advanceTimeWithMod"]}
{"id": "C121", "title": "Tables of time slots are read as written", "statement": "Each channel over the network uses the slot that the table gives to its two ends (text tables) or to the first link of its route (XML tables), every slot used is a slot of the frame, and the frame has the number of slots of the table. For XML tables the frame is one slot longer than the table says; channels without a rule silently use slot 0; a heading line in a text table is undefined behaviour.", "quantifier": "all tables, graphs, mappings and routes", "why_tests_cant": "needs every table and every placement", "anchors": ["src/libkiter/algorithms/throughput/so4_noc.cpp: generateConditions"]}
{"id": "C122", "title": "Both buffer explorations find the same trade-off", "statement": "The exploration of buffer sizes with K-periodic schedules and the one with the corrected symbolic execution start from the same channel sizes and stop at the same throughput, and for every distribution that one retains the other retains a distribution that is no larger and as fast within the tolerance; distributions of the same sizes get the same throughput.", "quantifier": "all consistent connected graphs with positive integer durations, all choices of the cycles reported at each step", "why_tests_cant": "needs every graph and every order of the search of both engines", "anchors": ["src/libkiter/algorithms/dse/dse.cpp: throughput_buffering_tradeoff_dse", "src/libkiter/algorithms/dse/kperiodic.cpp: compute_Kperiodic_throughput_and_cycles", "src/libkiter/algorithms/throughput/symbolic_execution.cpp: compute_asap_throughput_and_cycles"]}
{"id": "C123", "title": "The check of a schedule accepts the valid schedules and only them", "statement": "Given a graph and a schedule (initial starts, then periodic ones), the check terminates; it accepts the schedule exactly when no execution of any task starts before its tokens are on its inputs and before the previous execution of the task has ended.", "quantifier": "all graphs, all periodic schedules with initial starts, all reentrancy factors", "why_tests_cant": "The check follows the dates of one iteration and must be right about all the executions to come; a test sees one graph and one schedule, and the wrong answers depend on coincidences between dates of different tasks.", "anchors": ["src/libkiter/models/Scheduling.cpp: Scheduling::is_valid_schedule"]}
{"id": "C124", "title": "The printed drawing of a periodic schedule shows that schedule", "statement": "Asking a periodic throughput command to print writes a drawing with one row per task, all different, ordered by first start. Its blocks are exactly the executions of the infinite schedule that starts at the computed dates, up to a latest date that leaves room for twice the repetition count of every pattern, each in the row of its task, at its start, with its duration; every row lies inside the grid.", "quantifier": "all consistent graphs without initial phases, all periodicity vectors, all positive throughputs", "why_tests_cant": "Which executions are drawn depends on a rounding of the ratio of two dates and on the sorted order of all the starts; a test compares one picture.", "anchors": ["src/libkiter/algorithms/throughput/kperiodic.cpp: print_schedule, print_function", "tools/latex_sample/scheduling.sty: scheduling, addexecution, addperiodictask, taskname"]}
{"id": "C125", "title": "The analysis with channel sizes given on the command line answers for those sizes", "statement": "Given one number per channel, separated by commas, the debug command of the symbolic execution prints the best throughput that any schedule reaches when the channel of id i has the i-th number as its size, and critical channels that must all be considered to do better; without sizes, with another number of them or with an entry that is not a number it refuses with a message.", "quantifier": "all strongly connected consistent graphs the exploration covers, all lists of sizes, all texts of them", "why_tests_cant": "The reading is a loop over a text of any length and the throughput a fixed point of an unbounded execution; a test checks a few texts and graphs.", "anchors": ["src/libkiter/algorithms/throughput/symbolic_execution.cpp: compute_asap_throughput_and_cycles_debug, compute_asap_throughput_and_cycles"]}
{"id": "C126", "title": "The Graphviz drawing of a schedule shows that schedule", "statement": "The drawing of a schedule for Graphviz ends and has one row per task. Its blocks are the executions of the infinite schedule in order, each spanning its start to its end whatever the scale, as far as the patterns whose first execution starts before the given date, or at least over one iteration of the graph when no date is given; all nodes have different names and rows do not overlap.", "quantifier": "all lists of tasks, all schedules, dates and scales, all earlier drawings", "why_tests_cant": "The number of patterns depends on the dates, two names collide only for some numbers of executions, and the size of a block depends on the calls made before; a test compares one text.", "anchors": ["src/libkiter/printers/stdout.cpp: PeriodicScheduling2DOT, add_block", "src/libkiter/algorithms/scheduling/BufferlessNoCScheduling.cpp: PeriodicScheduling2DOT call"]}
{"id": "C127", "title": "The drawing of a mapped graph shows its mapping and its routes", "statement": "The drawing written by PrintMapping shows every node of the network at its own place with its number, every task exactly once, next to the node it is mapped to and never on top of another task (at the mean place of its mapped neighbours when it is not mapped), every link in the colours of the channels routed through it, one colour per channel and a different one for each, and one arc per channel when asked for.", "quantifier": "all mesh sizes, graphs, mappings and routes", "why_tests_cant": "Which sprites overlap depends on how many tasks share a node, and which colours collide on the order in which all the routes meet the links; a test looks at one drawing.", "anchors": ["src/libkiter/printers/stdout.cpp: GenerateNoCDOT, printMapping, TaskSprite"]}
{"id": "C128", "title": "The texts of an event graph show the event graph", "statement": "The XML, Tikz and Graphviz texts of an event graph (options XML, PRINTEG and DEP, and the expansion and de Groote commands) show exactly its events and its constraints with their weights and durations: two different graphs have different texts, labels tell the events apart, the Graphviz text is well formed with one cluster per task that holds the events of that task, and no two nodes are at the same place.", "quantifier": "all event graphs (any number of tasks, phases, executions and constraints)", "why_tests_cant": "Whether the braces match depends on the sequence of the task ids, and whether labels and places collide on their values; a test prints a graph with a few small ids.", "anchors": ["src/libkiter/models/EventGraph.cpp: EventGraph::printXML, EventGraph::printTikz, EventGraph::printDOT", "src/libkiter/algorithms/throughput/kperiodic.cpp: print_function", "src/libkiter/algorithms/throughput/degroote.cpp: compute_deGroote_throughput", "src/libkiter/algorithms/experiments/expansion_experiment.cpp"]}
{"id": "C129", "title": "The report on a graph is exact and leaves the graph as it was", "statement": "PrintInfos prints the number of tasks and channels, one line per task with its id, degrees, total duration, repetition factor and phases, one line per channel with its ends, total rates and initial tokens, and the sums of the numbers of cycles, of phases and of executions of one iteration; it says that the graph is not consistent exactly when it is not, and the graph can be edited afterwards as before.", "quantifier": "all graphs (any number of tasks, phases and channels, consistent or not)", "why_tests_cant": "The sums come from the solution of the balance equations of the whole graph; a test compares a few printed numbers.", "anchors": ["src/libkiter/printers/stdout.cpp: printInfos, sum_nt, sum_phit, sum_qt", "src/libkiter/models/Dataflow.h: is_consistent, getVertexTotalDuration"]}
{"id": "C130", "title": "The drawing of a graph shows the graph", "statement": "The Graphviz text of PrintGraph, when read as Graphviz reads it, has one node per task with its id and name and one arrow per channel between the right nodes, with the initial tokens, the production rates at the tail and the consumption rates at the head, initial rates included; different graphs have different drawings, a drawing is written for every graph, and the graph can be edited afterwards as before.", "quantifier": "all graphs (any number of tasks, phases and channels, all names, all rates)", "why_tests_cant": "The text depends on every name and every rate; a test reads a few drawings.", "anchors": ["src/libkiter/printers/stdout.cpp: GenerateGraphDOT, printGraph", "src/libkiter/commons/commons.h: toString", "src/libkiter/models/Dataflow.h: is_consistent"]}
{"id": "C131", "title": "The table of shortest paths of a mesh is complete", "statement": "After generateAllShortestPaths, getShortestPaths(s, d) is the list of all the shortest paths from core s to core d, each once, and none for s = d, for every pair of cores, however often the table was generated.", "quantifier": "all meshes, all pairs of cores, all numbers of calls", "why_tests_cant": "The number of paths grows exponentially with the distance; a test compares a few lists.", "anchors": ["src/libkiter/models/NoCGraph.cpp: generateAllShortestPaths, printAllPathsUtil", "src/libkiter/models/NoCGraph.h: getShortestPaths, getPathLength, getMapIndex"]}
{"id": "C132", "title": "The file of Pareto points gives the front back", "statement": "The CSV file that the buffer exploration writes has one row per Pareto point, in order of size; a reader gets back the size, the throughput and one capacity per channel of the graph; the size is the sum of the capacities, the throughput is the one of the graph with these capacities, and no capacities do better than all the rows that are no larger.", "quantifier": "all histories of additions and removals; all graphs, initial capacities and numbers of rounds of the exploration", "why_tests_cant": "The rows depend on the whole history of the exploration; a test compares one file.", "anchors": ["src/libkiter/algorithms/dse/buffer_sizing.cpp: StorageDistribution::print_quantities_csv, StorageDistributionSet::writeCSV", "src/libkiter/algorithms/dse/dse.cpp: throughput_buffering_tradeoff_dse"]}
{"id": "C133", "title": "The comparison with SDF3 compares with what SDF3 answers", "statement": "The command that compares Kiter with SDF3 takes as SDF3's throughput the value of the line `thr(graph) = value` that SDF3 prints, and its result is 1 exactly when this value and Kiter's throughput differ by no more than the tolerance.", "quantifier": "all outputs of SDF3 (graph names, values, second lines, lengths), all throughputs and tolerances", "why_tests_cant": "SDF3 is a separate program that the tests do not have; the outcome depends on the text it prints.", "anchors": ["src/libkiter/algorithms/throughput/SDF3Wrapper.cpp: runSDF3Throughput", "src/libkiter/algorithms/transformation/bug_explorer.cpp: compare_sdf3_throughput", "src/libkiter/commons/commons.h: split, fromString"]}
{"id": "C134", "title": "The averages printed by the replay of packets are averages over iterations", "statement": "The last line of the TDMA replay gives the average time per iteration (thro) and the average time an iteration takes (exec_time), for every list of packets, number of packets per iteration and delivery times.", "quantifier": "all numbers of packets per iteration, all numbers of packets, all delivery times; all replays", "why_tests_cant": "The averages are over all the packets of the input; a test compares one line.", "anchors": ["src/libkiter/algorithms/scheduling/TDMAScheduler.cpp: write_tdma_schedule"]}
{"id": "C135", "title": "The sizes in the report of K-Iter are those of the event graph", "statement": "With the parameter DETAILS, each row printed by the K-Iter throughput computation gives in sum_Ki the number of executions of the K-periodic pattern of that iteration, which is at most sum_Ni, the number of executions of a graph iteration, and in sum_KiKj the number of constraints between them; reporting does not change the result.", "quantifier": "all consistent graphs, all cycle ratio solvers, all iterations of all runs", "why_tests_cant": "The counts depend on the circuits met along the whole run; a test compares the rows of one graph.", "anchors": ["src/libkiter/algorithms/throughput/kperiodic.cpp: print_kiter_throughput_iteration, sum_Ki, sum_KiKj, sum_Ni, sum_NiNj, updateEventGraph", "src/libkiter/models/EventGraph.h: addEventGroup, getEventCount"]}
{"id": "C136", "title": "A merged router does the work of its parts in the order of the schedule", "statement": "When SoftwareControlledNoCBufferless merges router tasks, the new task consists of the executions of the merged ones, without gap and in the order of their starts in the schedule, in every period; it moves on each channel the tokens its task moved, so that the graph stays consistent with one repetition count for the new task.", "quantifier": "all sets of tasks with distinct identifiers and periodic schedules with positive periods", "why_tests_cant": "The number of tasks, the starts, the periods and the length of the list of executions are unbounded.", "anchors": ["src/libkiter/algorithms/software_noc.cpp: mergeConfigNodesInit"]}
{"id": "C137", "title": "The periodic sizing commands size the graph for the period asked for, or for the smallest one", "statement": "PeriodicSizing and SPeriodicSizing print the least memory of a (strictly) periodic schedule with the period given as PERIOD, or with the smallest possible period when none is given; for a period without such a schedule they say that there is no solution.", "quantifier": "all consistent graphs, token sizes and periods, all solvers that answer correctly", "why_tests_cant": "Graphs, rates and periods are unbounded, and the least memory is a minimum over infinitely many schedules.", "anchors": ["src/libkiter/algorithms/buffersizing/periodic.cpp: compute_csdf_1periodic_memory", "src/libkiter/algorithms/buffersizing/periodic_fixed.cpp: compute_strictly_periodic_memory"]}
{"id": "C138", "title": "Cleaning after merging removes exactly the tasks without channel", "statement": "When SoftwareControlledNoCBufferless cleans the graph, it removes exactly the tasks that have no channel, keeps the others in order with all channels, takes the removed tasks and no others off the lists of competing transfers, and ends.", "quantifier": "all graphs, all lists of competing transfers", "why_tests_cant": "The number of tasks, channels and links is unbounded, and the loop has no bound of its own.", "anchors": ["src/libkiter/algorithms/software_noc.cpp: removeOrphanNodes"]}
{"id": "C139", "title": "The hyperperiod of the schedule with the network", "statement": "At the end of SoftwareControlledNoCBufferless the hyperperiod computed from the schedule is the time of one iteration of the original graph, and the common multiple computed with it is a multiple of all repetition counts.", "quantifier": "all schedules that keep the pace of the graph, with any number of tasks of the graph and of the network", "why_tests_cant": "Tasks, periods and repetition counts are unbounded.", "anchors": ["src/libkiter/algorithms/software_noc.cpp: findHP"]}
{"id": "C140", "title": "The occupancy chart marks a task exactly while it executes", "statement": "The chart printed at the end of SoftwareControlledNoCBufferless has for each task a line of fifty characters, one per unit of time, with a mark exactly at the times at which the task executes according to the schedule, in the first and in later periods.", "quantifier": "all tasks of a schedule, with any numbers of starts and phases, any period, and all times", "why_tests_cant": "Starts, durations, periods and times are unbounded.", "anchors": ["src/libkiter/algorithms/software_noc.cpp: software_noc_bufferless"]}
{"id": "C141", "title": "Merging tasks keeps the channels to the rest of the graph", "statement": "When tasks are merged along a schedule for which the rates of the new task are defined, the new graph has the other tasks and one new task; channels between other tasks are unchanged; each channel between a merged task and another one is attached to the new task, with its identifier, name, initial tokens and type, the rates at the other end unchanged and the rates of the sequence of executions, cut after the initial phases, at the new task; channels between merged tasks are gone, and there are no others.", "quantifier": "all graphs with distinct identifiers, all sets of merged tasks, all sequences of executions", "why_tests_cant": "Graphs, sets of tasks and sequences are unbounded.", "anchors": ["src/libkiter/algorithms/transformation/merging.cpp: mergeCSDFFromSchedule", "src/libkiter/models/Dataflow.h: addVertex, addEdge, removeVertex"]}
{"id": "C142", "title": "A dependency makes two tasks exclude each other without blocking", "statement": "Adding a dependency between two tasks with given repetition counts keeps the graph consistent with these counts; from the initial tokens the two tasks never execute at the same time, and in every reachable state one of them is executing or can start; one initial token less would let them block.", "quantifier": "all pairs of positive repetition counts and all interleavings of starts and ends of any length", "why_tests_cant": "Counts and interleavings are unbounded.", "anchors": ["src/libkiter/algorithms/software_noc.cpp: addDependency, gcdExtended"]}
{"id": "C143", "title": "Merging routers moves their channels to the new router", "statement": "When SoftwareControlledNoCBufferless merges routers, the channels of the new graph are the old ones, each with its ends at merged routers moved to the new router, with the rates of its router in the new one there, and with its initial tokens, type and the rates at other tasks as before.", "quantifier": "all graphs, all lists of merged routers, also neighbours", "why_tests_cant": "Numbers of routers and channels are unbounded.", "anchors": ["src/libkiter/algorithms/software_noc.cpp: mergeConfigNodesInit"]}
{"id": "C144", "title": "Circuits are cut before the tasks are mapped", "statement": "Before SoftwareControlledNoCBufferless maps the tasks it removes channels, after which the graph has no circuit; channels into tasks that are on no circuit stay; it does so for every graph.", "quantifier": "all graphs and all program orders", "why_tests_cant": "Graphs and orders are unbounded, the search is recursive.", "anchors": ["src/libkiter/algorithms/software_noc.cpp: removeCycleEdges, DFSUtil_PgmOrder"]}
