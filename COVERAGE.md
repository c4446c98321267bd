# Which parts of the code are modelled

Generated from the citations in the comments of `lean/Verif/Model/*.lean`. The lines are those a definition cites as the code it
models, merged; lines between them are declarations, comments, messages of the log, or code left out on purpose, as said in the
comment of the definition next to them. Paths are under `/repo/src`.

## Modelled, whole or in part

| file (lines) | model modules | lines cited |
| --- | --- | --- |
| kiter/main.cpp (178) | CommandLine, FileThroughput | 48-177 |
| libkiter/algorithms/analysis/cycle_detection.cpp (220) | CycleCount, SCC | 20-23, 33-42, 48-199 |
| libkiter/algorithms/buffersizing.h (37) | PeriodicDSE, PeriodicSizing | 18-32 |
| libkiter/algorithms/buffersizing/backpressure.cpp (599) | BackPressure | 33-37, 41-50, 59-78, 86-114, 124-167, 179-186, 207-249, 255-285, 338-363, 367-378 |
| libkiter/algorithms/buffersizing/periodic.cpp (398) | PeriodicCommand, PeriodicSizing | 21-395 |
| libkiter/algorithms/buffersizing/periodic_fixed.cpp (1066) | FixedOffsets, PeriodicCommand, PeriodicSizing | 20-1065 |
| libkiter/algorithms/dse/abstract_dep_graph.cpp (226) | StorageDeps | 12-115, 146-147, 163-164, 171-209 |
| libkiter/algorithms/dse/base_monotonic_optimisation.cpp (363) | KneeSearch | 32-81, 211-362 |
| libkiter/algorithms/dse/buffer_sizing.cpp (1210) | ChannelSize, FrontFile, KneeSearch, Storage | 28-38, 47-49, 53, 59, 89-114, 120-129, 175-195, 239-249, 261-317, 332-370, 375-411, 796-812, 834-891, 928-938, 1016-1023, 1027-1209 |
| libkiter/algorithms/dse/buffer_sizing.h (148) | Storage | 17-120 |
| libkiter/algorithms/dse/dse.cpp (532) | BufferExploration, FrontFile, KneeSearch, Storage, SymbolicExploration | 27-474, 500-508 |
| libkiter/algorithms/dse/kperiodic.cpp (187) | BufferExploration | 24-186 |
| libkiter/algorithms/dse/periodic.cpp (213) | PeriodicDSE | 88-212 |
| libkiter/algorithms/experiments/ExpansionGraph.cpp (314) | Expansion | 30-313 |
| libkiter/algorithms/experiments/expansion_experiment.cpp (46) | Expansion | 18-43 |
| libkiter/algorithms/mapping/BufferlessNoCMapAndRoute.cpp (407) | CircuitCut, NoCGraph, Placement, TaskOrder | 38-139, 143-191, 195-407 |
| libkiter/algorithms/mapping/bufferless_utils/GraphMapper.h (308) | NoCGraph, Placement | 68-153, 157-298 |
| libkiter/algorithms/mapping/bufferless_utils/SCCFinder.h (273) | CircuitCut | 34-95, 109-122, 126-131, 150-265 |
| libkiter/algorithms/mapping/createNoC.cpp (21) | NoCFlow | 11-20 |
| libkiter/algorithms/mapping/modelCommunications.cpp (306) | Overlaps, Transform | 32-299 |
| libkiter/algorithms/mapping/moduloMapping.cpp (34) | NoC, NoCFlow | 16-24 |
| libkiter/algorithms/mapping/randomMapping.cpp (25) | NoC, NoCFlow | 13-21 |
| libkiter/algorithms/mapping/randomRouting.cpp (64) | NoC | 17-60 |
| libkiter/algorithms/mapping/xyRouting.cpp (75) | NoC, NoCFlow | 11-73 |
| libkiter/algorithms/normalization.cpp (483) | Normalization | 15-471 |
| libkiter/algorithms/scc.cpp (83) | SCC, StorageDeps | 15-82 |
| libkiter/algorithms/scheduling/BufferlessNoCScheduling.cpp (262) | Overlaps | 109-182. only the bags of competing tasks are modelled |
| libkiter/algorithms/scheduling/CSDF_KPeriodicScheduling.cpp (325) | FixedK, KSchedule | 15-23, 31-283, 305-321 |
| libkiter/algorithms/scheduling/CSDF_KPeriodicScheduling_LP.cpp (534) | PeriodicLP | 16-26, 36-498 |
| libkiter/algorithms/scheduling/CSDF_SPeriodicScheduling.cpp (82) | SPSchedule | 19-62 |
| libkiter/algorithms/scheduling/TDMAScheduler.cpp (305) | TDMA, TDMAStats | 12-26, 30-168, 173-302 |
| libkiter/algorithms/scheduling/TDMAScheduler.h (130) | TDMA | 40-48, 52-61, 79-98 |
| libkiter/algorithms/scheduling/bufferLessAwareScheduling.cpp (626) | BufferlessK | 34-142. the graph and period are modelled, not the linear program |
| libkiter/algorithms/software_noc.cpp (2401) | Conflict, CycleEdges, Dependency, OccupancyChart, Orphans, RouterChannels, RouterMerge, SoftwareNoC | 197-213, 233-249, 1018-1131, 1136-1157, 1236-1261, 1265-1274, 1432-1538, 1543-1608, 1706-1852, 1885-1994, 2005-2067, 2072-2091, 2372-2395. the construction of the network tasks (addPathNode), resolveSrcConflicts, the search for conflicting transfers, the task made by mergeConfigNodesInit, removeOrphanNodes and findHP are modelled; not modelled: the commands that chain them |
| libkiter/algorithms/symbolic_execution.cpp (268) | Untimed | 18-40, 49, 86-99, 110-112, 118-186, 202-214, 219-253, 257 |
| libkiter/algorithms/throughput/SDF3Wrapper.cpp (46) | Sdf3Run | 13-44 |
| libkiter/algorithms/throughput/actor.cpp (291) | So4, StorageDeps, SymbolicExecution | 24-67, 75-77, 91-117, 121-270 |
| libkiter/algorithms/throughput/actor.h (63) | SymbolicExecution | 57-63 |
| libkiter/algorithms/throughput/csdf_strictly_periodic.cpp (183) | SPSchedule, StrictlyPeriodic | 15-137 |
| libkiter/algorithms/throughput/degroote.cpp (184) | DeGroote | 18-142, 149-160 |
| libkiter/algorithms/throughput/kperiodic.cpp (1059) | BufferlessK, FileThroughput, FixedK, Howard, KIter, KIterReport, KPeriodic, KPeriodicMachine, KSchedule, PrintSchedule, StartTimes | 26-43, 57-741, 753-756, 780, 792-799, 809-818, 830-850, 856-1054 |
| libkiter/algorithms/throughput/so4_noc.cpp (356) | So4 | 24-101, 105-151, 155-354 |
| libkiter/algorithms/throughput/state.cpp (307) | So4, SymbolicExecution | 22-66, 142-199, 205-226, 264-273, 282-296 |
| libkiter/algorithms/throughput/state.h (82) | SymbolicExecution | 55-66 |
| libkiter/algorithms/throughput/symbolic_execution.cpp (818) | AsapSchedule, AsapThroughput, SizedCommand, StorageDeps, SymbolicExecution, SymbolicExploration | 33-203, 207-407, 414-427, 432-557, 576-818 |
| libkiter/algorithms/transformation/bug_explorer.cpp (72) | RemoveTask, Sdf3Run | 20-71 |
| libkiter/algorithms/transformation/merging.cpp (717) | MergeChannels, Merging | 171-224, 234-281, 289-507, 521-693 |
| libkiter/algorithms/transformation/remove_reentrancy.cpp (37) | Reentrancy | 12-36 |
| libkiter/algorithms/transformation/singleOutput.cpp (81) | Transform | 11-78 |
| libkiter/commons/GroupList.h (98) | GroupList | 22-26, 32-92 |
| libkiter/commons/KiterRegistry.h (76) | CommandLine | 45-56, 68-71 |
| libkiter/commons/basic_types.h (22) | KPeriodicMachine, RepetitionMachine | 12-13, 17 |
| libkiter/commons/commons.cpp (206) | Text | 152-167 |
| libkiter/commons/commons.h (584) | BackPressure, Fraction, GraphDraw, KPeriodic, KPeriodicMachine, LpBuilder, Repetition, RepetitionMachine, Storage, Text | 42-295, 320-327, 345-351, 359-373, 446-448, 459-466, 499-509, 520-524, 528-562 |
| libkiter/commons/howard_cycle_ratio.hpp (766) | Howard | 39-40, 47-57, 81-550 |
| libkiter/commons/verbose.h (154) | Dataflow | 86-90 |
| libkiter/generators/LTEGeneator.cpp (76) | LTE | 14-69 |
| libkiter/generators/LTEGenerator.h (46) | LTE | 20-25 |
| libkiter/generators/RandomGenerator.cpp (290) | RandomGenerator, RandomLive | 46-289 |
| libkiter/generators/RandomGenerator.h (57) | RandomGenerator | 15-29 |
| libkiter/lp/glpsol.cpp (497) | LpBuilder | 15-34, 109-114, 127-132, 138-141, 146-382, 402-434. the builder and the text of the program are modelled, the solver is not |
| libkiter/lp/glpsol.h (357) | LpBuilder | 101-102, 111-115, 138-149, 153-172, 227-255, 260-269, 273-289, 309-325 |
| libkiter/models/Dataflow.h (1011) | AsapThroughput, BufferExploration, CycleCount, Dataflow, DeGroote, DotSchedule, FileThroughput, Infos, KIter, KPeriodic, KPeriodicMachine, LTE, MergeChannels, Normalization, Orphans, PrintKiter, Reentrancy, Repetition, RepetitionMachine, SDF3, SoftwareNoC, SymbolicExecution, TaskOrder, Transform, Untimed | 91-119, 238-245, 254, 265, 270-289, 301-305, 310, 314, 321-324, 328-332, 338-380, 387-398, 402-430, 449-494, 521-535, 549-552, 560-583, 635-912, 918-955, 961-970, 983-1000 |
| libkiter/models/EventGraph.cpp (268) | EventGraphDraw, Tarjan | 14-228 |
| libkiter/models/EventGraph.h (545) | DeGroote, EventGraphDraw, Expansion, Howard, KIterReport, KPeriodic, StartTimes, Tarjan | 36-82, 100-123, 172-238, 291-325, 329-352, 363-530 |
| libkiter/models/NoC.cpp (99) | NoC | 12-95 |
| libkiter/models/NoC.h (185) | NoC, Overlaps | 33-39, 52-59, 66-77, 83-146 |
| libkiter/models/NoCGraph.cpp (362) | AllPaths, NoCGraph | 25-150, 157-207, 211-276, 280-361 |
| libkiter/models/NoCGraph.h (102) | AllPaths, NoC, NoCGraph, Placement | 18, 38-42, 48-69, 76, 82-99 |
| libkiter/models/Scheduling.cpp (480) | Chart, ScheduleCheck | 61-148, 276-474. asASCII and asASCIINew are modelled |
| libkiter/models/Scheduling.h (106) | Chart, PeriodicLP, SPSchedule, StartTimes | 17-22, 56-75 |
| libkiter/models/repetition_vector.cpp (190) | AsapThroughput, Dataflow, FileThroughput, Repetition, RepetitionMachine | 15-150, 158-189 |
| libkiter/printers/SDF3Wrapper.cpp (884) | FileThroughput, SDF3, Text | 30-41, 85-102, 106-192, 197-615, 655-871 |
| libkiter/printers/stdout.cpp (901) | DotSchedule, GraphDraw, Infos, NoCDraw, PrintKiter | 13-111, 123-528, 534-630, 662-838. the printer of the kiter format is modelled; the DOT, LaTeX and infos printers are not |
| libkiter/printers/stdout.h (55) | GraphDraw | 26 |

## Not modelled

| file (lines) | why |
| --- | --- |
| kiter/tasks/SchedulingKiterTask.h (35) | declarations only |
| libkiter/algorithms/algorithms.h (29) | declarations only |
| libkiter/algorithms/analysis/cycle_detection.h (49) | declarations only |
| libkiter/algorithms/buffersizing/backpressure.h (26) | declarations only |
| libkiter/algorithms/buffersizing/periodic.h (30) | declarations only |
| libkiter/algorithms/buffersizing/periodic_fixed.h (51) | declarations only |
| libkiter/algorithms/dse/abstract_dep_graph.h (41) | declarations only |
| libkiter/algorithms/dse/base_monotonic_optimisation.h (45) | declarations only |
| libkiter/algorithms/dse/dse.h (28) | declarations only |
| libkiter/algorithms/dse/kperiodic.h (25) | declarations only |
| libkiter/algorithms/dse/monotonic_optimisation.cpp (271) | NOT MODELLED: never called (its only call, dse.cpp:226, is commented out) |
| libkiter/algorithms/dse/monotonic_optimisation.h (43) | declarations only |
| libkiter/algorithms/dse/periodic.h (31) | declarations only |
| libkiter/algorithms/experiments.h (14) | declarations only |
| libkiter/algorithms/experiments/ExpansionGraph.h (37) | declarations only |
| libkiter/algorithms/experiments/expansion_experiment.h (24) | declarations only |
| libkiter/algorithms/mapping/generateTDMA.cpp (36) | NOT MODELLED: writes through a pointer never set, so that every call is undefined behaviour |
| libkiter/algorithms/mappings.h (68) | declarations only |
| libkiter/algorithms/normalization.h (40) | declarations only |
| libkiter/algorithms/scc.h (28) | declarations only |
| libkiter/algorithms/schedulings.h (114) | declarations only |
| libkiter/algorithms/software_noc.h (37) | declarations only |
| libkiter/algorithms/symbolic_execution.h (29) | declarations only |
| libkiter/algorithms/throughput/SDF3Wrapper.h (22) | declarations only |
| libkiter/algorithms/throughput/csdf_strictly_periodic.h (29) | declarations only |
| libkiter/algorithms/throughput/degroote.h (36) | declarations only |
| libkiter/algorithms/throughput/kperiodic.h (70) | declarations only |
| libkiter/algorithms/throughput/so4_noc.h (28) | declarations only |
| libkiter/algorithms/throughput/symbolic_execution.h (61) | declarations only |
| libkiter/algorithms/transformation/dynamicNoC.cpp (113) | the body is commented out |
| libkiter/algorithms/transformation/dynamicNoC.h (26) | declarations only |
| libkiter/algorithms/transformation/merging.h (36) | declarations only |
| libkiter/algorithms/transformation/remove_reentrancy.h (36) | declarations only |
| libkiter/algorithms/transformation/singleOutput.h (36) | declarations only |
| libkiter/algorithms/transformations.h (40) | declarations only |
| libkiter/commons/verbose.cpp (55) | messages of the log, no effect on results |
| libkiter/generators/generators.h (17) | declarations only |
| libkiter/lp/glpsol_coin.cpp (78) | NOT MODELLED: interface to the solver CBC |
| libkiter/lp/glpsol_cplex.cpp (44) | NOT MODELLED: interface to the solver CPLEX |
| libkiter/lp/glpsol_gurobi.cpp (103) | NOT MODELLED: interface to the solver Gurobi |
| libkiter/models/Dataflow.cpp (20) | instantiates a template and one constant |
| libkiter/models/KiterTask.h (35) | declarations only |
| libkiter/models/repetition_vector.h (23) | declarations only |
| libkiter/null.cpp (1) | empty file |
| libkiter/printers/SDF3Wrapper.h (28) | declarations only |
| libkiter/printers/printers.h (15) | declarations only |
