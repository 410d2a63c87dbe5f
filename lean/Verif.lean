import Verif.Py
import Verif.Rng
import Verif.Spec
import Verif.Model.Base
import Verif.Model.BetaBernoulli
import Verif.Model.BetaBinomial
import Verif.Model.BetaInBeta
import Verif.Model.BetaInDirichlet
import Verif.Model.Cast
import Verif.Model.DirCtor
import Verif.Model.DirichletProcess
import Verif.Model.Ellipse
import Verif.Model.Finite
import Verif.Model.Float
import Verif.Model.Geometric
import Verif.Model.Gibbs
import Verif.Model.Likelihood
import Verif.Model.Loaders
import Verif.Model.LogLik
import Verif.Model.Memory
import Verif.Model.MixCtor
import Verif.Model.MixUtils
import Verif.Model.NegIndex
import Verif.Model.NegMode
import Verif.Model.NormalInvW
import Verif.Model.PitmanYor
import Verif.Model.Results
import Verif.Model.VarFit
import Verif.Model.Variational
import Verif.Lemmas.AltKernel
import Verif.Lemmas.Apart
import Verif.Lemmas.Append
import Verif.Lemmas.Argmax
import Verif.Lemmas.AtomLedger
import Verif.Lemmas.BBerDraw
import Verif.Lemmas.BBerOk
import Verif.Lemmas.BBerPath
import Verif.Lemmas.BBinDraw
import Verif.Lemmas.BIBDraw
import Verif.Lemmas.BIDOk
import Verif.Lemmas.BetaCross
import Verif.Lemmas.BetaLaw
import Verif.Lemmas.BetaLog
import Verif.Lemmas.BetaMode
import Verif.Lemmas.ChainLaw
import Verif.Lemmas.CompletePost
import Verif.Lemmas.Counts
import Verif.Lemmas.DP
import Verif.Lemmas.Demo
import Verif.Lemmas.Ends
import Verif.Lemmas.ErgodicMean
import Verif.Lemmas.ErgodicSum
import Verif.Lemmas.FinAverage
import Verif.Lemmas.FinClasses
import Verif.Lemmas.FinDensity
import Verif.Lemmas.FinErgodic
import Verif.Lemmas.FinGibbs
import Verif.Lemmas.FinLabels
import Verif.Lemmas.FinLaw
import Verif.Lemmas.FinLimit
import Verif.Lemmas.FinRun
import Verif.Lemmas.FlMonoid
import Verif.Lemmas.Float
import Verif.Lemmas.Fresh
import Verif.Lemmas.GammaLog
import Verif.Lemmas.GeoGibbs
import Verif.Lemmas.GeoSlice
import Verif.Lemmas.GeoTail
import Verif.Lemmas.Gibbs
import Verif.Lemmas.GibbsAverage
import Verif.Lemmas.GibbsBook
import Verif.Lemmas.GibbsDemo
import Verif.Lemmas.GibbsErgodic
import Verif.Lemmas.GibbsKernel
import Verif.Lemmas.GibbsLimit
import Verif.Lemmas.GibbsOrder
import Verif.Lemmas.GibbsRun
import Verif.Lemmas.GibbsStep
import Verif.Lemmas.Hyper
import Verif.Lemmas.Inert
import Verif.Lemmas.InfProd
import Verif.Lemmas.InvWishart
import Verif.Lemmas.Keeps
import Verif.Lemmas.Law
import Verif.Lemmas.Levels
import Verif.Lemmas.Marginal
import Verif.Lemmas.MemoryFacts
import Verif.Lemmas.Mirror
import Verif.Lemmas.MirrorGibbs
import Verif.Lemmas.MirrorVar
import Verif.Lemmas.Misc
import Verif.Lemmas.MixtureLaw
import Verif.Lemmas.NoError
import Verif.Lemmas.NoErrorBB
import Verif.Lemmas.NormalWishart
import Verif.Lemmas.Normalised
import Verif.Lemmas.PYPartition
import Verif.Lemmas.PYSpec
import Verif.Lemmas.PairplotDemo
import Verif.Lemmas.PairplotFacts
import Verif.Lemmas.PartitionPost
import Verif.Lemmas.PathLaw
import Verif.Lemmas.PermRel
import Verif.Lemmas.Phantom
import Verif.Lemmas.Predictive
import Verif.Lemmas.Priors
import Verif.Lemmas.QuickStart
import Verif.Lemmas.Race
import Verif.Lemmas.RandGenExists
import Verif.Lemmas.RandomPost
import Verif.Lemmas.Reach
import Verif.Lemmas.Redraw
import Verif.Lemmas.Rel
import Verif.Lemmas.Reorder
import Verif.Lemmas.Robust
import Verif.Lemmas.RobustClasses
import Verif.Lemmas.RobustRuns
import Verif.Lemmas.Sim
import Verif.Lemmas.SliceLaw
import Verif.Lemmas.Stable
import Verif.Lemmas.Stick
import Verif.Lemmas.StickClasses
import Verif.Lemmas.StickDensity
import Verif.Lemmas.StickGibbs
import Verif.Lemmas.StickInv
import Verif.Lemmas.StickLaw
import Verif.Lemmas.StickMean
import Verif.Lemmas.StickPartition
import Verif.Lemmas.StickRun
import Verif.Lemmas.StickTail
import Verif.Lemmas.StoredStates
import Verif.Lemmas.Stream
import Verif.Lemmas.StreamCons
import Verif.Lemmas.Tail
import Verif.Lemmas.TailAe
import Verif.Lemmas.TailFeeds
import Verif.Lemmas.TailLaw
import Verif.Lemmas.TailOptim
import Verif.Lemmas.TailReach
import Verif.Lemmas.TailTrivial
import Verif.Lemmas.Tidy
import Verif.Lemmas.Triple
import Verif.Lemmas.Units
import Verif.Lemmas.UrnPath
import Verif.Lemmas.VarDemo
import Verif.Lemmas.VarFit
import Verif.Lemmas.VarGibbs
import Verif.Lemmas.VarLaw
import Verif.Lemmas.VarLoop
import Verif.Lemmas.VarOptimum
import Verif.Lemmas.VarReal
import Verif.Lemmas.VarRegular
import Verif.Lemmas.Variational
import Verif.Lemmas.WeightTotals
import Verif.Lemmas.WishartMode
import Verif.Lemmas.Wp
import Verif.Props.C01
import Verif.Props.C02
import Verif.Props.C03
import Verif.Props.C04
import Verif.Props.C05
import Verif.Props.C06
import Verif.Props.C07
import Verif.Props.C08
import Verif.Props.C09
import Verif.Props.C10
import Verif.Props.C100
import Verif.Props.C101
import Verif.Props.C102
import Verif.Props.C103
import Verif.Props.C104
import Verif.Props.C105
import Verif.Props.C106
import Verif.Props.C107
import Verif.Props.C108
import Verif.Props.C109
import Verif.Props.C11
import Verif.Props.C110
import Verif.Props.C111
import Verif.Props.C112
import Verif.Props.C113
import Verif.Props.C114
import Verif.Props.C114b
import Verif.Props.C115
import Verif.Props.C116
import Verif.Props.C117
import Verif.Props.C118
import Verif.Props.C119
import Verif.Props.C12
import Verif.Props.C120
import Verif.Props.C121
import Verif.Props.C122
import Verif.Props.C123
import Verif.Props.C124
import Verif.Props.C125
import Verif.Props.C126
import Verif.Props.C127
import Verif.Props.C128
import Verif.Props.C129
import Verif.Props.C13
import Verif.Props.C130
import Verif.Props.C131
import Verif.Props.C132
import Verif.Props.C133
import Verif.Props.C134
import Verif.Props.C135
import Verif.Props.C136
import Verif.Props.C137
import Verif.Props.C138
import Verif.Props.C139
import Verif.Props.C14
import Verif.Props.C140
import Verif.Props.C141
import Verif.Props.C142
import Verif.Props.C143
import Verif.Props.C144
import Verif.Props.C145
import Verif.Props.C146
import Verif.Props.C15
import Verif.Props.C16
import Verif.Props.C17
import Verif.Props.C18
import Verif.Props.C19
import Verif.Props.C20
import Verif.Props.C21
import Verif.Props.C22
import Verif.Props.C23
import Verif.Props.C24
import Verif.Props.C25
import Verif.Props.C26
import Verif.Props.C27
import Verif.Props.C28
import Verif.Props.C29
import Verif.Props.C30
import Verif.Props.C31
import Verif.Props.C32
import Verif.Props.C33
import Verif.Props.C34
import Verif.Props.C35
import Verif.Props.C36
import Verif.Props.C37
import Verif.Props.C38
import Verif.Props.C39
import Verif.Props.C40
import Verif.Props.C41
import Verif.Props.C42
import Verif.Props.C43
import Verif.Props.C44
import Verif.Props.C45
import Verif.Props.C46
import Verif.Props.C47
import Verif.Props.C48
import Verif.Props.C49
import Verif.Props.C50
import Verif.Props.C51
import Verif.Props.C52
import Verif.Props.C53
import Verif.Props.C54
import Verif.Props.C55
import Verif.Props.C56
import Verif.Props.C57
import Verif.Props.C58
import Verif.Props.C59
import Verif.Props.C60
import Verif.Props.C61
import Verif.Props.C62
import Verif.Props.C63
import Verif.Props.C64
import Verif.Props.C65
import Verif.Props.C66
import Verif.Props.C67
import Verif.Props.C68
import Verif.Props.C69
import Verif.Props.C70
import Verif.Props.C71
import Verif.Props.C72
import Verif.Props.C73
import Verif.Props.C74
import Verif.Props.C75
import Verif.Props.C76
import Verif.Props.C77
import Verif.Props.C78
import Verif.Props.C79
import Verif.Props.C80
import Verif.Props.C81
import Verif.Props.C82
import Verif.Props.C83
import Verif.Props.C83Bernoulli
import Verif.Props.C83Common
import Verif.Props.C83Nested
import Verif.Props.C84
import Verif.Props.C85
import Verif.Props.C86
import Verif.Props.C87
import Verif.Props.C87b
import Verif.Props.C88
import Verif.Props.C89
import Verif.Props.C90
import Verif.Props.C91
import Verif.Props.C92
import Verif.Props.C93
import Verif.Props.C94
import Verif.Props.C95
import Verif.Props.C96
import Verif.Props.C97
import Verif.Props.C98
import Verif.Props.C99
import Verif.RandGen
