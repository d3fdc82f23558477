import Verif.Model.Py
import Verif.Model.Graph
import Verif.Spec.Reach
import Verif.Lemmas.Dict
import Verif.Lemmas.Graph
import Verif.Lemmas.Reach
import Verif.Lemmas.Edges
import Verif.Props.GraphCore
import Verif.Model.DiGraph
import Verif.Spec.DSep
import Verif.Lemmas.Trail
import Verif.Lemmas.DiGraph
import Verif.Lemmas.Topo
import Verif.Lemmas.DSepFacts
import Verif.Props.DiGraph
import Verif.Model.PDAG
import Verif.Spec.PDAG
import Verif.Lemmas.Fold
import Verif.Lemmas.PDAG
import Verif.Lemmas.Meek
import Verif.Lemmas.Rule0
import Verif.Props.PDAG
import Verif.Model.Adjacency
import Verif.Model.Dag2Cpdag
import Verif.Model.Metrics
import Verif.Spec.Search
import Verif.Lemmas.Skeleton
import Verif.Lemmas.Search
import Verif.Lemmas.Pattern
import Verif.Lemmas.Same
import Verif.Lemmas.Fast
import Verif.Props.Dag2Cpdag
import Verif.Props.Search
import Verif.Props.Metrics
import Verif.Model.Indep
import Verif.Props.Indep
import Verif.Model.Adapters
import Verif.Props.Adapters
import Verif.Model.Pdag2dag
import Verif.Lemmas.Pdag2dag
import Verif.Props.Pdag2dag
import Verif.Lemmas.Complete
import Verif.Props.Cpdag
import Verif.Props.PcClass
import Verif.Props.GraphMore
import Verif.Props.Kernel
import Verif.Props.RandomDag
import Verif.Props.Merge
import Verif.Model.GES
import Verif.Spec.GES
import Verif.Lemmas.GES
import Verif.Lemmas.GESPass
import Verif.Lemmas.GESBest
import Verif.Lemmas.GESOps
import Verif.Lemmas.GESOpsGen
import Verif.Lemmas.GESFit
import Verif.Props.GES
import Verif.Spec.Class
import Verif.Lemmas.Essential
import Verif.Props.CpdagExact
import Verif.Lemmas.GESValid
import Verif.Lemmas.FamScore
import Verif.Lemmas.GESHang
import Verif.Lemmas.GESSim
import Verif.Props.GESValid
import Verif.Props.GESFalse
import Verif.Model.Notears
import Verif.Lemmas.Notears
import Verif.Lemmas.NotearsGrad
import Verif.Props.Notears
import Verif.Model.Accuracy
import Verif.Props.Accuracy
import Verif.Model.SHP
import Verif.Lemmas.SHP
import Verif.Lemmas.SHPFit
import Verif.Props.SHP
import Verif.Model.LocalScore
import Verif.Lemmas.DiffScore
import Verif.Lemmas.LocalScore
import Verif.Props.LocalScore
import Verif.Model.Cache
import Verif.Props.Cache
import Verif.Model.Lingam
import Verif.Lemmas.Lingam
import Verif.Props.Lingam
import Verif.Model.Simulate
import Verif.Model.SimulateLag
import Verif.Lemmas.Simulate
import Verif.Props.Simulate
import Verif.Props.SimulatePnl
import Verif.Props.SimulateLag
import Verif.Props.SimulateHawkes
import Verif.Model.Olc
import Verif.Lemmas.Olc
import Verif.Lemmas.OlcInv
import Verif.Props.Olc
import Verif.Props.OlcFalse
import Verif.Model.KernelTest
import Verif.Lemmas.KernelTest
import Verif.Lemmas.Hsic
import Verif.Props.Kci
import Verif.Props.OlcKci
import Verif.Props.Hsic
import Verif.Props.HsicWidth
import Verif.Props.Anm
import Verif.Model.Tetrad
import Verif.Props.Tetrad
import Verif.Model.Hier
import Verif.Lemmas.HierFind
import Verif.Props.HierFind
import Verif.Props.HierMerge
import Verif.Props.HierUpdate
import Verif.Props.HierLoop
import Verif.Props.HierRoll
import Verif.Props.HierGraph
import Verif.Props.HierOrder
import Verif.Props.HierOmega
import Verif.Model.Minimize
import Verif.Props.Minimize
import Verif.Model.CrossVal
import Verif.Props.CrossVal
import Verif.Lemmas.CrossVal
import Verif.Props.CvScore
import Verif.Model.Gpr
import Verif.Props.Gpr
import Verif.Spec.LinearModel
import Verif.Lemmas.Markov
import Verif.Model.FisherZ
import Verif.Lemmas.NormCdf
import Verif.Lemmas.PartialCorr
import Verif.Lemmas.DSepMap
import Verif.Lemmas.FisherZ
import Verif.Props.FisherZ
import Verif.Props.FisherPC
import Verif.Props.FisherSem
import Verif.Props.FisherExamples
import Verif.Model.Expm
import Verif.Lemmas.Expm
import Verif.Lemmas.ExpmBound
import Verif.Props.Expm
import Verif.Props.ExpmGrad
import Verif.Props.ExpmPade
import Verif.Model.CondKci
import Verif.Lemmas.CondKci
import Verif.Props.CondKci
import Verif.Props.CondKciMore
import Verif.Model.Network
import Verif.Lemmas.Network
import Verif.Props.Network
import Verif.Props.NetworkLoop
import Verif.Model.EntLoss
import Verif.Props.EntLoss
import Verif.Model.Mutual
import Verif.Lemmas.Mutual
import Verif.Props.Mutual
import Verif.Props.MutualInfo
import Verif.Props.MutualHist
import Verif.Model.Plot
import Verif.Props.Plot
import Verif.Model.HsicTest
import Verif.Props.HsicU
import Verif.Props.HsicV
import Verif.Props.HsicBlock
import Verif.Props.FisherMethod
import Verif.Model.Performance
import Verif.Props.Performance
import Verif.Model.LinAlg
import Verif.Props.LinAlg
import Verif.Model.KernelWidth
import Verif.Props.KernelWidth
import Verif.Props.SHPEm
import Verif.Model.EventTable
import Verif.Props.EventTable
import Verif.Model.NotearsData
import Verif.Props.NotearsData
import Verif.Model.Lag
import Verif.Props.Lag
import Verif.Props.FisherIndex
import Verif.Model.Wald
import Verif.Props.Wald
import Verif.Model.OlcStat
import Verif.Props.OlcStat
import Verif.Model.Orient
import Verif.Props.Orient
import Verif.Props.KernelZero
import Verif.Props.NetworkMore
import Verif.Props.EntVar
import Verif.Props.CondKciLarge
import Verif.Model.SHPNot
import Verif.Props.SHPNot
import Verif.Model.Knn
import Verif.Props.Knn
import Verif.Props.HsicNull
import Verif.Spec.IMap
import Verif.Lemmas.IMap
import Verif.Lemmas.Covered
import Verif.Lemmas.Inclusion
import Verif.Lemmas.Consistent
import Verif.Props.GESConsistent
import Verif.Props.GESConsistentFalse
import Verif.Lemmas.BicGain
import Verif.Props.BicConsistent
import Verif.Lemmas.Five
import Verif.Lemmas.MeekFirst
import Verif.Props.Five
import Verif.Props.GESDefault
import Verif.Model.HsicSub
import Verif.Props.HsicSub
import Verif.Spec.Measured
import Verif.Props.HierModel
import Verif.Lemmas.TetradLarge
import Verif.Props.HierSample
import Verif.Spec.Hierarchy
import Verif.Lemmas.HierPass
import Verif.Props.HierTree
import Verif.Props.HierTreeSample
import Verif.Model.HierGraph
import Verif.Spec.LatentOrder
import Verif.Props.HierLatent
import Verif.Props.HierLatentFalse
import Verif.Spec.Factor
import Verif.Props.OlcFactor
import Verif.Props.OlcFactorFalse
import Verif.Lemmas.NotearsOpt
import Verif.Props.NotearsEqual
import Verif.Props.NotearsPair
import Verif.Props.EntPool
import Verif.Props.SHPFind
import Verif.Lemmas.Perturb
import Verif.Lemmas.Sample
import Verif.Props.Consistency
import Verif.Lemmas.Limit
import Verif.Lemmas.SecondOrder
import Verif.Props.Level
import Verif.Model.Rbf
import Verif.Props.Rbf
import Verif.Props.NotearsSample
import Verif.Model.SqDist
import Verif.Props.SqDist
import Verif.Props.NotearsPenalty
import Verif.Lemmas.KernelLimit
import Verif.Props.KernelPower
import Verif.Props.ShuffleTest
import Verif.Lemmas.Chaos
import Verif.Props.SpectralTest
import Verif.Lemmas.MedianWidth
import Verif.Props.MedianTest
import Verif.Props.FeatureTest
import Verif.Props.FeatureMiss
import Verif.Props.AnmDrawn
import Verif.Props.AnmWrong
import Verif.Props.NullMean
import Verif.Props.UnbiasedMean
import Verif.Props.BlockPower
import Verif.Props.BlockLevel
import Verif.Props.BlockDirect
