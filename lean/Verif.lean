import Verif.Basic
import Verif.Model.Hypergraph
import Verif.Model.GainBuckets
import Verif.Model.KLFM
import Verif.Spec.Hypergraph
import Verif.Spec.Container
import Verif.Spec.Search
import Verif.Proofs.WF
import Verif.Proofs.Container
import Verif.Proofs.Cut
import Verif.Proofs.Conc
import Verif.Proofs.Counts
import Verif.Proofs.SortMove
import Verif.Proofs.Move
import Verif.Proofs.Buckets
import Verif.Proofs.Gain
import Verif.Proofs.GainMove
import Verif.Proofs.GainInit
import Verif.Proofs.Pass
import Verif.Proofs.Bridge
import Verif.Props.Container
import Verif.Props.Refine
import Verif.Model.Bsp
import Verif.Spec.Dist
import Verif.Proofs.Bsp
import Verif.Props.Dist
import Verif.Model.Contraction
import Verif.Spec.Free
import Verif.Proofs.Free
import Verif.Props.Free
import Verif.Model.Reduce
import Verif.Spec.Reduce
import Verif.Proofs.Reduce
import Verif.Proofs.Restrict
import Verif.Props.Reduce
import Verif.Model.Recursive
import Verif.Spec.Recursive
import Verif.Proofs.Recursive
import Verif.Props.Recursive
import Verif.Model.LabelProp
import Verif.Model.InitPart
import Verif.Spec.LabelProp
import Verif.Proofs.LabelProp
import Verif.Proofs.Sample
import Verif.Proofs.Same
import Verif.Proofs.InitPart
import Verif.Props.LabelProp
import Verif.Model.Coarsen
import Verif.Spec.Coarsen
import Verif.Proofs.Coarsen
import Verif.Proofs.Contract
import Verif.Proofs.Uncoarsen
import Verif.Props.Coarsen
import Verif.Model.Multilevel
import Verif.Proofs.Multilevel
import Verif.Props.Multilevel
import Verif.Spec.Levels
import Verif.Proofs.Levels
import Verif.Props.Levels
import Verif.Model.Reader
import Verif.Spec.Reader
import Verif.Proofs.Reader
import Verif.Props.Reader
import Verif.Model.Writer
import Verif.Spec.Writer
import Verif.Proofs.Writer
import Verif.Props.Writer
import Verif.Model.RecBisect
import Verif.Spec.RecBisect
import Verif.Proofs.CutNets
import Verif.Proofs.Bounds
import Verif.Proofs.RecBisect
import Verif.Proofs.RecBalance
import Verif.Proofs.Nearest
import Verif.Props.RecBisect
import Verif.Props.CutNets
import Verif.Model.SyncCount
import Verif.Props.SyncCount
import Verif.Model.KLFMPar
import Verif.Proofs.Reject
import Verif.Proofs.ParGain
import Verif.Proofs.ParLocal
import Verif.Proofs.ParUpdate
import Verif.Proofs.ParRefresh
import Verif.Proofs.ParOwner
import Verif.Proofs.ParUpdateC
import Verif.Proofs.ParInit
import Verif.Proofs.ParPhase
import Verif.Proofs.ParRound
import Verif.Proofs.ParRounds
import Verif.Proofs.ParPass
import Verif.Proofs.ParFull
import Verif.Proofs.ParAgree
import Verif.Proofs.ParExact
import Verif.Proofs.ParGains
import Verif.Props.KLFMPar
import Verif.Model.Redistribute
import Verif.Spec.Redistribute
import Verif.Proofs.Redistribute
import Verif.Proofs.RedistLocal
import Verif.Proofs.RedistAll
import Verif.Proofs.RedistMain
import Verif.Proofs.RedistLoad
import Verif.Proofs.KeepsInts
import Verif.Props.Redistribute
import Verif.Props.Procs
import Verif.Model.CoarsenPar
import Verif.Spec.CoarsenPar
import Verif.Proofs.CoarsenReq
import Verif.Proofs.CoarsenInfo
import Verif.Proofs.CoarsenGrow
import Verif.Proofs.CoarsenMatch
import Verif.Proofs.CoarsenUnion
import Verif.Proofs.CoarsenHeld
import Verif.Proofs.CoarsenDone
import Verif.Proofs.CoarsenPar
import Verif.Props.CoarsenPar
import Verif.Model.UncoarsenPar
import Verif.Proofs.UncoarsenPar
import Verif.Proofs.UncoarsenStep
import Verif.Props.UncoarsenPar
import Verif.Model.BisectPar
import Verif.Spec.BisectPar
import Verif.Proofs.Replicate
import Verif.Proofs.BestOf
import Verif.Props.BisectPar
import Verif.Proofs.MlPar
import Verif.Proofs.MlParTop
import Verif.Spec.Matching
import Verif.Proofs.Matching
import Verif.Props.Matching
import Verif.Spec.Requests
import Verif.Proofs.Requests
import Verif.Props.Requests
import Verif.Spec.Trace
import Verif.Props.Trace
import Verif.Props.TracePar
import Verif.Spec.Labels
import Verif.Props.Labels
import Verif.Props.MlPar
import Verif.Model.RecBisectPar
import Verif.Spec.RecBisectPar
import Verif.Proofs.Kept
import Verif.Proofs.RecBisectPar
import Verif.Props.RecBisectPar
import Verif.Proofs.RecBalancePar
import Verif.Props.RecBalancePar
import Verif.Model.Checks
import Verif.Props.Checks
import Verif.Model.Text
import Verif.Spec.Text
import Verif.Proofs.Text
import Verif.Props.Text
import Verif.Spec.Sizes
import Verif.Proofs.RedistSizes
import Verif.Model.Main
import Verif.Spec.Main
import Verif.Proofs.Main
import Verif.Props.Main
import Verif.Model.WritePar
import Verif.Spec.WritePar
import Verif.Props.WritePar
import Verif.Model.RecCutPar
import Verif.Spec.RecCutPar
import Verif.Proofs.AddCut
import Verif.Proofs.AddCutWorld
import Verif.Proofs.CutProg
import Verif.Proofs.CutKept
import Verif.Proofs.RecCutPar
import Verif.Props.RecCutPar
import Verif.Proofs.MainCut
import Verif.Props.MainCut
import Verif.Model.Machine
import Verif.Spec.Machine
import Verif.Proofs.Machine
import Verif.Props.Machine
import Verif.Spec.Balance
import Verif.Proofs.RecSlack
import Verif.Proofs.RecRandom
import Verif.Props.Balance
import Verif.Proofs.Room
import Verif.Props.MlBalance
import Verif.Proofs.ParCourse
import Verif.Props.MlParCourse
import Verif.Props.BalancePar
import Verif.Props.RecCutOne
import Verif.Props.MainBalance
import Verif.Spec.RecSum
import Verif.Proofs.RecSum
import Verif.Props.RecSum
import Verif.Props.RecBlind
import Verif.Props.MainBalancePar
import Verif.Props.RecCutTwo
import Verif.Props.Metrics
import Verif.Spec.RecSumPar
import Verif.Proofs.RecSumPar
import Verif.Props.RecSumPar
import Verif.Proofs.SlackSplit
import Verif.Proofs.RecSlackPar
import Verif.Props.RecSlackPar
import Verif.Props.MainSlackPar
import Verif.Model.Report
import Verif.Spec.Report
import Verif.Props.Report
import Verif.Model.Counter
import Verif.Props.Counter
import Verif.Props.ParBalance
import Verif.Props.InfoMerge
import Verif.Props.MlParOver
import Verif.Model.Settings
import Verif.Props.Settings
import Verif.Model.MachineKLFM
import Verif.Proofs.MachineGain
import Verif.Proofs.MachineKLFM
import Verif.Props.MachineKLFM
import Verif.Model.GainChecks
import Verif.Props.GainChecks
import Verif.Props.UnitTests
import Verif.Model.MachineMl
import Verif.Proofs.MachineMl
import Verif.Props.MachineMl
import Verif.Spec.Lone
import Verif.Proofs.Lone
import Verif.Props.Lone
import Verif.Props.MainLone
import Verif.Props.MachineRec
import Verif.Props.MachineMain
import Verif.Props.MachineKLFMPar
import Verif.Props.MachineMlPar
import Verif.Props.MachineRecPar
import Verif.Props.MachineMainPar
import Verif.Props.MachineCutPar
