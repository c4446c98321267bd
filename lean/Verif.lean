import Verif.Props.Fraction
import Verif.Props.KPeriodic
import Verif.Props.KPeriodicRounding
import Verif.Props.StartTimes
import Verif.Props.KIter
import Verif.Props.Storage
import Verif.Props.DSE
import Verif.Props.ChannelSize
import Verif.Props.SymbolicExecution
import Verif.Props.Repetition
import Verif.Props.RepetitionMachine
import Verif.Props.Dataflow
import Verif.Props.SCC
import Verif.Props.NoC
import Verif.Props.TDMA
import Verif.Props.Text
import Verif.Props.GroupList
import Verif.Props.CommandLine
import Verif.Props.Merging
import Verif.Props.Transform
import Verif.Props.Communication
import Verif.Props.RandomGenerator
import Verif.Props.RandomLive
import Verif.Props.DeGroote
import Verif.Props.StrictlyPeriodic
import Verif.Props.Howard
import Verif.Props.HowardLimit
import Verif.Props.KIterHoward
import Verif.Props.SelfTimed
import Verif.Props.EnginesAgree
import Verif.Props.ExplorationsAgree
import Verif.Props.SelfTimedHalt
import Verif.Props.AsapThroughput
import Verif.Props.BufferExploration
import Verif.Props.PeriodicSizing
import Verif.Props.FixedOffsets
import Verif.Props.StrictSizing
import Verif.Props.FixedK
import Verif.Props.PeriodicLP
import Verif.Props.Normalization
import Verif.Props.SDF3
import Verif.Props.FileThroughput
import Verif.Props.Placement
import Verif.Props.TaskOrder
import Verif.Props.Expansion
import Verif.Props.Conflict
import Verif.Props.StorageDeps
import Verif.Props.SymbolicExploration
import Verif.Props.KPeriodicInit
import Verif.Model.KneeSearch
import Verif.Spec.KneeSearch
import Verif.Lemmas.KneeSearch
import Verif.Props.KneeSearch
import Verif.Model.SPSchedule
import Verif.Props.SPSchedule
import Verif.Model.Chart
import Verif.Spec.Chart
import Verif.Lemmas.Chart
import Verif.Props.Chart
import Verif.Model.AsapSchedule
import Verif.Lemmas.AsapSchedule
import Verif.Props.AsapSchedule
import Verif.Model.KSchedule
import Verif.Props.KSchedule
import Verif.Model.PeriodicDSE
import Verif.Props.PeriodicDSE
import Verif.Props.PeriodicFront
import Verif.Model.Untimed
import Verif.Props.Untimed
import Verif.Props.PacketTrace
import Verif.Model.BackPressure
import Verif.Props.BackPressure
import Verif.Model.CycleCount
import Verif.Spec.CycleCount
import Verif.Lemmas.CycleCount
import Verif.Props.CycleCount
import Verif.Props.DeGrooteClean
import Verif.Model.NoCGraph
import Verif.Spec.NoCGraph
import Verif.Lemmas.NoCGraph
import Verif.Props.NoCGraph
import Verif.Model.Reentrancy
import Verif.Spec.Reentrant
import Verif.Lemmas.Reentrant
import Verif.Props.Reentrant
import Verif.Spec.Compare
import Verif.Props.Compare
import Verif.Model.BufferlessK
import Verif.Props.BufferlessK
import Verif.Model.LpBuilder
import Verif.Spec.LpBuilder
import Verif.Lemmas.LpBuilder
import Verif.Props.LpBuilder
import Verif.Props.Hierarchy
import Verif.Props.Components
import Verif.Props.LTE
import Verif.Props.PrintKiter
import Verif.Props.RemoveTask
import Verif.Props.NoCFlow
import Verif.Props.Overlaps
import Verif.Props.Tarjan
import Verif.Props.SoftwareNoC
import Verif.Props.KPeriodicMachine
import Verif.Props.FileThroughputHoward
import Verif.Props.So4
import Verif.Props.So4Command
import Verif.Model.ScheduleCheck
import Verif.Spec.ScheduleCheck
import Verif.Lemmas.ScheduleCheck
import Verif.Props.ScheduleCheck
import Verif.Model.PrintSchedule
import Verif.Spec.PrintSchedule
import Verif.Lemmas.PrintSchedule
import Verif.Props.PrintSchedule
import Verif.Model.SizedCommand
import Verif.Props.SizedCommand
import Verif.Model.DotSchedule
import Verif.Spec.DotSchedule
import Verif.Lemmas.DotSchedule
import Verif.Props.DotSchedule
import Verif.Model.NoCDraw
import Verif.Props.NoCDraw
import Verif.Model.EventGraphDraw
import Verif.Spec.EventGraphDraw
import Verif.Props.EventGraphDraw
import Verif.Model.Infos
import Verif.Props.Infos
import Verif.Model.GraphDraw
import Verif.Spec.GraphDraw
import Verif.Props.GraphDraw
import Verif.Model.AllPaths
import Verif.Props.AllPaths
import Verif.Model.FrontFile
import Verif.Spec.FrontFile
import Verif.Props.FrontFile
import Verif.Model.Sdf3Run
import Verif.Props.Sdf3Run
import Verif.Model.TDMAStats
import Verif.Props.TDMAStats
import Verif.Props.KIterReport
import Verif.Props.RouterMerge
import Verif.Model.PeriodicCommand
import Verif.Props.PeriodicCommand
import Verif.Model.Orphans
import Verif.Props.Orphans
import Verif.Model.OccupancyChart
import Verif.Props.OccupancyChart
import Verif.Model.MergeChannels
import Verif.Props.MergeChannels
import Verif.Model.Dependency
import Verif.Props.Dependency
import Verif.Model.RouterChannels
import Verif.Props.RouterChannels
import Verif.Model.CycleEdges
import Verif.Props.CycleEdges
