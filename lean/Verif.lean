import Verif.Algo.AuxKernel
import Verif.Algo.AuxMeasure
import Verif.Algo.AvgRun
import Verif.Algo.BlockedAvg
import Verif.Algo.BlockedConv
import Verif.Algo.BlockedDens
import Verif.Algo.BlockedDensAvg
import Verif.Algo.BlockedDensTail
import Verif.Algo.BlockedFirst
import Verif.Algo.BlockedHyper
import Verif.Algo.BlockedIter
import Verif.Algo.BlockedKernel
import Verif.Algo.BlockedRun
import Verif.Algo.BlockedStale
import Verif.Algo.BlockedStart
import Verif.Algo.CondAlloc
import Verif.Algo.CondLemmas
import Verif.Algo.CondRows
import Verif.Algo.DensRun
import Verif.Algo.Density
import Verif.Algo.DiscAvg
import Verif.Algo.DiscDraw
import Verif.Algo.DiscKernel
import Verif.Algo.FinChain
import Verif.Algo.FinChainAvg
import Verif.Algo.FinChainLimit
import Verif.Algo.Gibbs
import Verif.Algo.GibbsCore
import Verif.Algo.GibbsLemmas
import Verif.Algo.GibbsVals
import Verif.Algo.GibbsValsKernel
import Verif.Algo.GibbsValsLemmas
import Verif.Algo.HyperLaw
import Verif.Algo.HyperLawNgg
import Verif.Algo.LaplaceRun
import Verif.Algo.MassRun
import Verif.Algo.MeanHyper
import Verif.Algo.Neal2Iter
import Verif.Algo.Neal2Run
import Verif.Algo.Neal3Avg
import Verif.Algo.Neal3Chain
import Verif.Algo.Neal3Mean
import Verif.Algo.Neal8Iter
import Verif.Algo.Neal8Op
import Verif.Algo.Neal8Run
import Verif.Algo.PartKernel
import Verif.Algo.PartState
import Verif.Algo.PartValues
import Verif.Algo.PositiveKernel
import Verif.Algo.PostMean
import Verif.Algo.PredTwo
import Verif.Algo.Predictive
import Verif.Algo.PropsAverage
import Verif.Algo.PropsBlocked
import Verif.Algo.PropsBlockedAvg
import Verif.Algo.PropsBlockedConv
import Verif.Algo.PropsBlockedDens
import Verif.Algo.PropsBlockedHyper
import Verif.Algo.PropsBlockedLs
import Verif.Algo.PropsBlockedNgg
import Verif.Algo.PropsCond
import Verif.Algo.PropsDensity
import Verif.Algo.PropsGibbs
import Verif.Algo.PropsGibbsMore
import Verif.Algo.PropsGibbsMulti
import Verif.Algo.PropsGibbsNeal2
import Verif.Algo.PropsGibbsVals
import Verif.Algo.PropsHyperLaw
import Verif.Algo.PropsLaplaceRun
import Verif.Algo.PropsMassRun
import Verif.Algo.PropsMeanHyper
import Verif.Algo.PropsMeanHyperMass
import Verif.Algo.PropsNeal2Chain
import Verif.Algo.PropsNeal3Avg
import Verif.Algo.PropsNeal3Chain
import Verif.Algo.PropsNeal3Density
import Verif.Algo.PropsNeal3Hyper
import Verif.Algo.PropsNeal3Multi
import Verif.Algo.PropsNeal8Chain
import Verif.Algo.PropsNeal8Ls
import Verif.Algo.PropsNggIter
import Verif.Algo.PropsPredictive
import Verif.Algo.PropsSMAvg
import Verif.Algo.PropsSMAvgThree
import Verif.Algo.PropsSMChain
import Verif.Algo.PropsSMFinite
import Verif.Algo.PropsSMMass
import Verif.Algo.PropsSMThree
import Verif.Algo.PropsSMTwo
import Verif.Algo.PropsSemiConjLaw
import Verif.Algo.PropsSemiConjUnique
import Verif.Algo.PropsSemiHdp
import Verif.Algo.PropsSemiHdpMoves
import Verif.Algo.PropsSemiHdpPseudo
import Verif.Algo.PropsSemiHdpWeights
import Verif.Algo.PropsSlice
import Verif.Algo.PropsSliceFinite
import Verif.Algo.PropsSplitMerge
import Verif.Algo.PropsTotalMass
import Verif.Algo.SMAvg
import Verif.Algo.SMBalance
import Verif.Algo.SMChain
import Verif.Algo.SMKernel
import Verif.Algo.SMLaunch
import Verif.Algo.SMLaw
import Verif.Algo.SMLawLemmas
import Verif.Algo.SMLemmas
import Verif.Algo.SMMass
import Verif.Algo.SMMassLemmas
import Verif.Algo.SMMoves
import Verif.Algo.SMThree
import Verif.Algo.SemiConjLaw
import Verif.Algo.SemiHdp
import Verif.Algo.SemiHdpInv
import Verif.Algo.SemiHdpLemmas
import Verif.Algo.SemiHdpMoves
import Verif.Algo.SemiHdpPseudo
import Verif.Algo.SemiHdpRelabel
import Verif.Algo.SemiHdpRun
import Verif.Algo.SemiHdpStep
import Verif.Algo.SemiHdpWeights
import Verif.Algo.Slice
import Verif.Algo.SliceLemmas
import Verif.Algo.SplitMerge
import Verif.Algo.SpotConv
import Verif.Algo.TotalMass
import Verif.Alloc.Cache
import Verif.Alloc.InitLemmas
import Verif.Alloc.InitModel
import Verif.Alloc.Lemmas
import Verif.Alloc.Model
import Verif.Alloc.Props
import Verif.Alloc.PropsMoves
import Verif.Alloc.Run
import Verif.Alloc.Spec
import Verif.Alloc.Sweep
import Verif.Collect.EvalLemmas
import Verif.Collect.Framing
import Verif.Collect.Lemmas
import Verif.Collect.Model
import Verif.Collect.Props
import Verif.Collect.PropsRReader
import Verif.Collect.RReader
import Verif.Collect.Spec
import Verif.Example.Gamma
import Verif.Example.PropsGamma
import Verif.Fault
import Verif.FaultLemmas
import Verif.Hier.Border
import Verif.Hier.Checks
import Verif.Hier.Chol
import Verif.Hier.Conj
import Verif.Hier.ConjLemmas
import Verif.Hier.Dist
import Verif.Hier.FA
import Verif.Hier.FALemmas
import Verif.Hier.GaussLaw
import Verif.Hier.Hyper
import Verif.Hier.HyperSerial
import Verif.Hier.Like
import Verif.Hier.MatLemmas
import Verif.Hier.Metropolis
import Verif.Hier.MetropolisLaw
import Verif.Hier.MetropolisState
import Verif.Hier.MixDist
import Verif.Hier.MixDistMulti
import Verif.Hier.MomentLemmas
import Verif.Hier.NWLemmas
import Verif.Hier.NigLaw
import Verif.Hier.NwLaw
import Verif.Hier.ProperKernel
import Verif.Hier.ProperKernelMv
import Verif.Hier.PropsConj
import Verif.Hier.PropsFA
import Verif.Hier.PropsGauss
import Verif.Hier.PropsHyper
import Verif.Hier.PropsHyperSerial
import Verif.Hier.PropsLaw
import Verif.Hier.PropsLinReg
import Verif.Hier.PropsMetropolis
import Verif.Hier.PropsMetropolisLaw
import Verif.Hier.PropsMetropolisState
import Verif.Hier.PropsMixDist
import Verif.Hier.PropsMixDistMulti
import Verif.Hier.PropsMoments
import Verif.Hier.PropsNW
import Verif.Hier.PropsNwLaw
import Verif.Hier.PropsPrior
import Verif.Hier.PropsPriorAccept
import Verif.Hier.PropsSerial
import Verif.Hier.PropsShare
import Verif.Hier.PropsStats
import Verif.Hier.PropsUncon
import Verif.Hier.Serial
import Verif.Hier.Share
import Verif.Hier.ShareLemmas
import Verif.Hier.StatsLemmas
import Verif.Hier.StudentLaw
import Verif.Hier.SymCoord
import Verif.Hier.Uncon
import Verif.Hier.UnconLemmas
import Verif.Hier.WishartLaw
import Verif.Mixing.Accept
import Verif.Mixing.Exch
import Verif.Mixing.Lemmas
import Verif.Mixing.LogitFlow
import Verif.Mixing.LogitLaw
import Verif.Mixing.LogitUpdate
import Verif.Mixing.Mala
import Verif.Mixing.Model
import Verif.Mixing.Props
import Verif.Mixing.PropsAccept
import Verif.Mixing.PropsLogitLaw
import Verif.Mixing.PropsSerial
import Verif.Mixing.PropsTrunc
import Verif.Mixing.SBLemmas
import Verif.Mixing.Serial
import Verif.Mixing.Series
import Verif.Mixing.SeriesMono
import Verif.Mixing.Spec
import Verif.Mixing.Trunc
import Verif.Program.ArgLemmas
import Verif.Program.Argparse
import Verif.Program.Build
import Verif.Program.Main
import Verif.Program.MainLemmas
import Verif.Program.Plot
import Verif.Program.PropsBuild
import Verif.Program.PropsPlot
import Verif.Program.PropsProgram
import Verif.Program.PropsPython
import Verif.Program.Words
import Verif.Utils.Lemmas
import Verif.Utils.Model
import Verif.Utils.PlotLemmas
import Verif.Utils.Plots
import Verif.Utils.Props
import Verif.Utils.PropsPlots
import Verif.Utils.PropsTruncBeta
import Verif.Utils.PropsWrapIn
import Verif.Utils.PropsWrappers
import Verif.Utils.TruncBeta
import Verif.Utils.Wrappers
import Verif.Axioms
