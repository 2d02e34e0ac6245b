import Verif.Basic
import Verif.Darray
import Verif.DarrayLemmas
import Verif.Sort
import Verif.Dict
import Verif.DictLemmas
import Verif.Props.Containers
import Verif.Tree
import Verif.FMap
import Verif.Strman
import Verif.Props.Strings
import Verif.F32
import Verif.Msg
import Verif.MsgFloat
import Verif.Obj
import Verif.Value
import Verif.Table
import Verif.Props.Wire
import Verif.Props.Compare
import Verif.OutMsg
import Verif.InMsg
import Verif.Packet
import Verif.Props.Queues
import Verif.Props.Radio
import Verif.Vstig
import Verif.Props.Stigmergy
import Verif.Props.Replicas
import Verif.Swarm
import Verif.Props.Swarms
import Verif.Hof
import Verif.Props.Hof
import Verif.Heap
import Verif.HeapClone
import Verif.Props.Heap
import Verif.VM
import Verif.VMInv
import Verif.VMSafe
import Verif.VMStep
import Verif.Props.VMValues
import Verif.VMCalls
import Verif.Props.VMSafety
import Verif.Props.VMCalls
import Verif.SwarmExec
import Verif.Props.SwarmExec
import Verif.Period
import Verif.Props.Period
import Verif.HeapWire
import Verif.Listen
import Verif.Props.Listen
import Verif.StringLib
import Verif.Props.StringLib
import Verif.MathLib
import Verif.F32Round
import Verif.Props.MathLib
import Verif.Debug
import Verif.Props.Debug
import Verif.Asm
import Verif.Props.Asm
import Verif.Lex
import Verif.Props.Lex
import Verif.Parser
import Verif.Syntax
import Verif.Comp
import Verif.CompProof
import Verif.CompExpr
import Verif.CompStat
import Verif.Sem
import Verif.SemShape
import Verif.CompTabs
import Verif.Place
import Verif.SimStep
import Verif.SimOps
import Verif.SimTab
import Verif.SimCall
import Verif.SimEval
import Verif.SimStat
import Verif.Emit
import Verif.CompStrings
import Verif.CompPos
import Verif.CompFuns
import Verif.CompLegal
import Verif.Link
import Verif.Whole
import Verif.Boot
import Verif.Run
import Verif.SemVals
import Verif.CompSize
import Verif.LexCases
import Verif.Props.Compiler
import Verif.Props.Phrases
import Verif.Props.Programs
import Verif.Slots
import Verif.PcFlow
import Verif.SlotsRun
import Verif.SlotsFuns
import Verif.Props.Slots
import Verif.ParseSound
import Verif.ParseAll
import Verif.ParseExpr
import Verif.ParseStat
import Verif.ParseScript
import Verif.Props.Acceptance
import Verif.Equip
import Verif.Install
import Verif.InstallBase
import Verif.InstallRun
import Verif.InstallSim
import Verif.LibSim
import Verif.Props.Library
import Verif.SemLib
import Verif.TypeLib
import Verif.NbrLib
import Verif.AstParse
import Verif.Bzz
import Verif.Script
import Verif.BzzTable
import Verif.TableScript
import Verif.Props.Script
import Verif.Props.TableScript
import Verif.F32Near
import Verif.Props.Floats
import Verif.Props.CompareOps
import Verif.Props.Session
import Verif.NbrSem
import Verif.Props.Neighbors
import Verif.Apart
import Verif.Broadcast
import Verif.ApartLib
import Verif.Props.Broadcast
import Verif.Stig
import Verif.StigSim
import Verif.StigStory
import Verif.StigCreate
import Verif.StigRun
import Verif.StigView
import Verif.Props.StigMachine
import Verif.StigNet
import Verif.Props.StigSwarm
import Verif.Props.Pitfalls
import Verif.SwarmTale
import Verif.SwarmRun
import Verif.SwarmSim
import Verif.SwarmLife
import Verif.Props.SwarmMachine
import Verif.Fixed
import Verif.Callback
import Verif.HofRun
import Verif.HofSim
import Verif.HomeLib
import Verif.Props.HofMachine
import Verif.Props.HofRuns
import Verif.NbrRun
import Verif.NbrMake
import Verif.Props.NbrMachine
import Verif.Props.NbrRuns
import Verif.StigEach
import Verif.Props.StigForeach
import Verif.Props.StigRuns
import Verif.StigMgr
import Verif.Props.StigManagers
import Verif.Props.StigConflictRuns
import Verif.Props.NbrMissing
import Verif.Props.BadKeys
import Verif.Props.ManyStrings
import Verif.DebugCall
import Verif.Props.DebugCall
import Verif.Props.TableInstr
