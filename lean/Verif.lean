import Verif.Props.Garcia
import Verif.Props.FFT
import Verif.Props.Schedule
import Verif.Props.Convolver
import Verif.Props.SubConvolvers
import Verif.Props.Partition
import Verif.Props.Ints
import Verif.Props.Channels
import Verif.Props.Buffers
import Verif.Props.Queue
import Verif.Props.Engine
import Verif.Props.EngineLevel
import Verif.Props.EngineLevelExamples
import Verif.Props.EngineReset
import Verif.Props.EngineExact
import Verif.Props.EngineSys
import Verif.Props.EngineThreads
import Verif.Props.EngineEndToEnd
import Verif.Props.EngineExamples
import Verif.Props.Fair
import Verif.Props.FairExamples
import Verif.Props.Work
import Verif.Props.Rounding
import Verif.Props.RoundingBits
import Verif.Props.RoundingChannels
import Verif.Props.RoundingParts
import Verif.Props.RoundingExamples
import Verif.Props.FloatEngine
import Verif.Props.FloatEngineExamples
import Verif.Props.QueueRA
import Verif.Props.Races
import Verif.Props.Schemes
import Verif.Props.Reference
import Verif.Props.ReferenceFloat
import Verif.Props.Cost
import Verif.Props.CostModel
import Verif.Props.Memory
import Verif.Props.EngineWork
import Verif.Props.FiniteMemory
import Verif.Props.FiniteMemoryExamples
import Verif.Props.Cuts
import Verif.Props.CutsExamples
import Verif.Props.FloatRange
import Verif.Props.EngineBits
import Verif.Props.EngineBitsExamples
import Verif.Props.Ieee
import Verif.Props.IeeeExamples
import Verif.Props.IeeeError
import Verif.Props.IeeeErrorExamples
import Verif.Props.EngineRecover
import Verif.Props.EngineRecoverExamples
import Verif.Props.Long
import Verif.Props.EngineMemory
import Verif.Props.EngineWitnesses
import Verif.Props.SystemWitnesses
import Verif.Props.FloatEngineWitnesses
import Verif.Props.Heap
import Verif.Props.CallerMemory
import Verif.Props.EngineLinear
import Verif.Props.Splitting
import Verif.Props.EngineCost
import Verif.Props.EngineCuts
import Verif.Props.EngineCutsExamples
import Verif.Props.Kill
import Verif.Props.ChannelCounts
import Verif.Props.ChannelCountsExamples
import Verif.Props.Listeners
import Verif.Props.ListenersExamples
import Verif.Props.EngineLinearThreads
import Verif.Props.EngineLinearThreadsExamples
import Verif.Props.SplittingThreads
import Verif.Props.SplittingThreadsExamples
import Verif.Props.EngineCutsThreads
import Verif.Props.EngineCutsThreadsExamples
import Verif.Props.EngineFormats
import Verif.Props.EngineBitsThreads
import Verif.Props.EngineBitsThreadsExamples
import Verif.Props.EngineLevelThreads
import Verif.Props.EngineLevelThreadsExamples
import Verif.Props.IeeeThreads
import Verif.Props.IeeeThreadsExamples
import Verif.Props.EngineResetThreads
import Verif.Props.EngineResetThreadsExamples
import Verif.Props.EngineLevelFloatThreads
import Verif.Props.EngineLevelFloatThreadsExamples
import Verif.Props.FloatEngineThreads
import Verif.Props.FloatEngineThreadsExamples
import Verif.Props.EngineRecoverThreads
import Verif.Props.EngineRecoverThreadsExamples
