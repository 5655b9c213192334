import Verif.HtnSpec
import Verif.HtnLemmas
import Verif.IntSearch
import Verif.TaskCounter
import Verif.Progression
import Verif.ProgressionGraph
import Verif.ProgressionInv
import Verif.DecomposeInv
import Verif.Auto
import Verif.Termination
import Verif.HeapExt
import Verif.Search
import Verif.SearchStep
import Verif.SearchInv
import Verif.SearchLoop
import Verif.SearchSound
import Verif.Reached
import Verif.Fringe
import Verif.Iso
import Verif.Props.Search
import Verif.Ordering
import Verif.OrderFlags
import Verif.Props.Example
import Verif.Props.Progression
import Verif.Props.Ordering
import Verif.SimpleHeur
import Verif.Props.EndToEnd
import Verif.IntSort
import Verif.IntHeap
import Verif.IntSets
import Verif.IntSets2
import Verif.Props.IntData
import Verif.Deque
import Verif.Props.Fringes
import Verif.Parse
import Verif.Props.Parse
import Verif.SatEncoder
import Verif.Props.SatEncoder
import Verif.Chains
import Verif.Bits
import Verif.Trie
import Verif.TopSort
import Verif.Props.Visited
import Verif.VisKey
import Verif.VisSound
import Verif.Props.VisitedKeys
import Verif.Matching
import Verif.VisPo
import Verif.Props.Matching
import Verif.MinImplied
import Verif.Props.MinImplied
import Verif.Record
import Verif.Extract
import Verif.SearchReached
import Verif.Props.Extract
import Verif.Strips
import Verif.HMax
import Verif.LmCut
import Verif.Props.Relaxed
import Verif.AddFF
import Verif.Props.AddFF
import Verif.Reach
import Verif.Scc
import Verif.SccGraph
import Verif.Props.Reach
import Verif.Rc
import Verif.Props.Rc
import Verif.RcSearch
import Verif.Props.RcSearch
import Verif.StateFormula
import Verif.Props.StateFormula
import Verif.Invariants
import Verif.Rintanen
import Verif.Props.Invariants
import Verif.MethodOrder
import Verif.TotalOrder
import Verif.Sog
import Verif.PoSog
import Verif.Pdt
import Verif.PdtTree
import Verif.PdtSel
import Verif.PdtPrune
import Verif.PdtPruneInv
import Verif.PdtFilter
import Verif.SatItems
import Verif.PdtSat
import Verif.PdtVars
import Verif.PdtFormula
import Verif.PdtDecode
import Verif.SatMutex
import Verif.SatPlan
import Verif.SatLoop
import Verif.SatInvs
import Verif.Props.Pdt
import Verif.PdtEval
import Verif.Props.SatPlan
import Verif.SatPrint
import Verif.SatCost
import Verif.Props.SatPrint
import Verif.Props.SatCost
import Verif.RefCount
import Verif.Props.RefCount
import Verif.AndOrGraph
import Verif.AndOrLM
import Verif.LmCausal
import Verif.LandmarkHtn
import Verif.Props.Landmarks
import Verif.PlanGraph
import Verif.Props.PlanGraph
import Verif.SasTask
import Verif.SasVars
import Verif.SasActs
import Verif.SasInit
import Verif.ToStack
import Verif.ToTrans
import Verif.ToTransOps
import Verif.ToTransComb
import Verif.ToTransSim
import Verif.ToTransMain
import Verif.ToTransWF
import Verif.ToReorder
import Verif.ToTransInput
import Verif.Props.Translate
import Verif.ToHddl
import Verif.HddlText
import Verif.Props.TransPrint
import Verif.Props.TransText
import Verif.PsSpec
import Verif.PsStack
import Verif.PsTrans
import Verif.PsOps
import Verif.PsSim
import Verif.PsMain
import Verif.PsWF
import Verif.Props.PsTranslate
import Verif.Pgb
import Verif.Props.Pgb
import Verif.SymVars
import Verif.SymImage
import Verif.Props.SymImage
import Verif.Automaton
import Verif.AutomatonSpec
import Verif.AutomatonInv
import Verif.AutomatonPrim
import Verif.AutomatonAbs
import Verif.AutomatonTwo
import Verif.AutomatonRun
import Verif.AutomatonSym
import Verif.AutomatonHom
import Verif.AutomatonTab
import Verif.Props.Automaton
import Verif.Dof
import Verif.DofTree
import Verif.DofShape
import Verif.DofFeas
import Verif.DofCons
import Verif.DofLayer
import Verif.DofSafe
import Verif.DofNet
import Verif.DofRun
import Verif.Props.Dof
import Verif.DofRelax
import Verif.DofExact
import Verif.Props.DofExact
import Verif.ReadFile
import Verif.ReadSpec
import Verif.ReadMain
import Verif.ReadTables
import Verif.Props.ReadFile
import Verif.Props.FileSearch
import Verif.PoLeaf
import Verif.PoRep
import Verif.PoMatch
import Verif.PoSem
import Verif.PoPlan
import Verif.PoExact
import Verif.PoLoop
import Verif.PoComplete
import Verif.PoFormula
import Verif.PoSched
import Verif.PoBound
import Verif.Flat
import Verif.Props.PoSat
import Verif.PushTrans
import Verif.ProgSpec
import Verif.PushOps
import Verif.PushSim
import Verif.PushMain
import Verif.PushEq
import Verif.Props.PushTranslate
import Verif.StripsTrans
import Verif.StripsComb
import Verif.StripsOps
import Verif.StripsNet
import Verif.StripsMain
import Verif.StripsCompl
import Verif.StripsEq
import Verif.Props.StripsTranslate
import Verif.PoHddl
import Verif.PoHddlSt
import Verif.PoHddlPs
import Verif.PoHddlPush
import Verif.Props.PoHddl
import Verif.PoPrint
import Verif.PoOrder
import Verif.PoPrintMain
import Verif.PoPrintLoop
import Verif.Props.PoPrint
import Verif.PoCost
import Verif.Props.PoCost
import Verif.Props.SatOrder
import Verif.SatMain
import Verif.Props.SatMain
import Verif.PoMain
import Verif.Props.PoMain
import Verif.WriteHddl
import Verif.Props.WriteHddl
import Verif.HeurArgs
import Verif.Props.HeurArgs
import Verif.Interactive
import Verif.Props.Interactive
