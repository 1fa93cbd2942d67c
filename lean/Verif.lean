import Verif.Props.Access
import Verif.Props.Agree
import Verif.Props.AlmostSure
import Verif.Props.Api
import Verif.Props.Asked
import Verif.Props.AskedMore
import Verif.Props.Average
import Verif.Props.Ba
import Verif.Props.BaBicon
import Verif.Props.BaChance
import Verif.Props.BaCore
import Verif.Props.BaDist
import Verif.Props.BaGrowth
import Verif.Props.BaLaw
import Verif.Props.BaRounds
import Verif.Props.Bicon
import Verif.Props.BiconSum
import Verif.Props.Binomial
import Verif.Props.Build
import Verif.Props.ChainLaw
import Verif.Props.ChainVariance
import Verif.Props.ClosedForm
import Verif.Props.Clusters
import Verif.Props.Config
import Verif.Props.ConfigBalance
import Verif.Props.ConfigChance
import Verif.Props.ConfigLaw
import Verif.Props.Connect
import Verif.Props.ConnectedConfig
import Verif.Props.ConnectedSim
import Verif.Props.ConnectedSw
import Verif.Props.Converge
import Verif.Props.ConvergeConfig
import Verif.Props.ConvergeSw
import Verif.Props.CoreBounds
import Verif.Props.Coupling
import Verif.Props.Degree
import Verif.Props.Delegate
import Verif.Props.Dense
import Verif.Props.Dog
import Verif.Props.DogHist
import Verif.Props.DogLaw
import Verif.Props.DotRead
import Verif.Props.Dual
import Verif.Props.DualAny
import Verif.Props.Edit
import Verif.Props.Er
import Verif.Props.ErBalance
import Verif.Props.Extreme
import Verif.Props.Float
import Verif.Props.Forget
import Verif.Props.Formula
import Verif.Props.Gilbert
import Verif.Props.Independent
import Verif.Props.Iter
import Verif.Props.Load
import Verif.Props.LoadCut
import Verif.Props.LoadRound
import Verif.Props.LoadUnique
import Verif.Props.LoadZero
import Verif.Props.Mean
import Verif.Props.Metropolis
import Verif.Props.OneEdge
import Verif.Props.Params
import Verif.Props.Quiet
import Verif.Props.RandomLaw
import Verif.Props.Rate
import Verif.Props.Recorded
import Verif.Props.Relabel
import Verif.Props.Release
import Verif.Props.Rounds
import Verif.Props.Serde
import Verif.Props.SizeHint
import Verif.Props.Spacial
import Verif.Props.SpacialDot
import Verif.Props.Stale
import Verif.Props.Subgraph
import Verif.Props.Sw
import Verif.Props.SwBalance
import Verif.Props.SwCore
import Verif.Props.SwLaw
import Verif.Props.SwPieces
import Verif.Props.Topology
import Verif.Props.Traverse
import Verif.Props.Tree
import Verif.Props.TrialAverage
import Verif.Props.TwoLooks
import Verif.Props.View
import Verif.Props.Ws
import Verif.Props.WsLaw
import Verif.Props.WsMoved
import Verif.Props.WsPlace
import Verif.Audit
