import Verif.Props.Windows
import Verif.Props.BitVector
import Verif.Props.Streams
import Verif.Props.Mixers
import Verif.Props.Construct
import Verif.Props.Prngs
import Verif.Props.LinearPrngs
import Verif.Props.Jobs
import Verif.Props.Results
import Verif.Props.Names
import Verif.Props.Evaluate
import Verif.Props.Budget
import Verif.Props.BinaryRank
import Verif.Props.RankProbs
import Verif.Props.LinearComplexity
import Verif.Props.Avalanche
import Verif.Props.Segments
import Verif.Props.Coupon
import Verif.Props.DrawProbs
import Verif.Props.RunsPerm
import Verif.Props.Bins
import Verif.Props.ChiSquare
import Verif.Props.Kolmogorov
import Verif.Props.Binomial
import Verif.Props.Normal
import Verif.Props.Correlation
import Verif.Props.Spearman
import Verif.Props.MergeBins
import Verif.Props.Text
import Verif.Props.Analysis
import Verif.Props.Table
import Verif.Props.Files
import Verif.Props.Sffs
import Verif.Props.TestSetups
import Verif.Props.BasicTests
import Verif.Props.AvalancheTests
import Verif.Props.DrawTests
import Verif.Props.PermutationTest
import Verif.Props.BlockTests
import Verif.Model.Suite
import Verif.Props.Suite
import Verif.Props.Reported
import Verif.Props.SerialRows
import Verif.Props.Overlap
import Verif.Props.OverlapMore
import Verif.Props.OverlapShift
import Verif.Model.Gamma
import Verif.Spec.ChiSquareLaw
import Verif.Lemmas.PolyList
import Verif.Lemmas.IncGamma
import Verif.Lemmas.Lentz
import Verif.Lemmas.LentzStop
import Verif.Lemmas.LogGamma
import Verif.Lemmas.ChiLaw
import Verif.Lemmas.ChiSum
import Verif.Lemmas.GammaLoops
import Verif.Props.Gamma
import Verif.Model.Combine
import Verif.Spec.UniformCube
import Verif.Spec.AndersonDarling
import Verif.Lemmas.AndersonDarling
import Verif.Props.Fisher
import Verif.Props.AndersonDarling
import Verif.Props.AndersonLevels
import Verif.Props.Elementary
import Verif.Model.Commands
import Verif.Props.TestCommand
import Verif.Props.InspectCommand
import Verif.Props.PerTestCommand
import Verif.Props.Calibration
import Verif.Props.CalibrationBlocks
import Verif.Props.CalibrationAvalanche
import Verif.Props.CalibrationRuns
import Verif.Model.Score
import Verif.Props.SearchScore
import Verif.Lemmas.Tails
import Verif.Props.Power
import Verif.Props.PowerLinear
import Verif.Props.PowerRank
import Verif.Props.PowerBic
import Verif.Lemmas.Mills
import Verif.Props.PowerRuns
import Verif.Props.SffsLocal
import Verif.Lemmas.KolmogorovSeries
import Verif.Props.MetaTest
import Verif.Model.SpecialFunctions
import Verif.Props.SpecialFunctions
import Verif.Props.SeriesFunctions
import Verif.Model.Twister
import Verif.Model.HardwarePrngs
import Verif.Props.Twister
import Verif.Props.HardwarePrngs
import Verif.Model.Catalogue
import Verif.Props.PowerEven
import Verif.Props.Catalogue
import Verif.Model.Rounded
import Verif.Lemmas.Rounding
import Verif.Props.Rounding
import Verif.Model.ToolRun
import Verif.Props.ToolRun
import Verif.Lemmas.MillsLower
import Verif.Props.FalseAlarms
import Verif.Lemmas.RunsTail
import Verif.Lemmas.RunsReal
import Verif.Props.FalseAlarmsRuns
import Verif.Props.SearchEnd
import Verif.Lemmas.CounterRuns
import Verif.Props.SelfCheck
import Verif.Props.SelfCheckRuns
import Verif.Spec.Decimal
import Verif.Model.Console
import Verif.Lemmas.Numbers
import Verif.Props.Numbers
import Verif.Props.Console
import Verif.Lemmas.Patterns
import Verif.Props.SelfCheckDraws
import Verif.Props.SelfCheckLinear
import Verif.Props.SelfCheckUniform
import Verif.Props.SelfCheckSerial
import Verif.Props.SelfCheckPermutation
import Verif.Spec.MixerCode
import Verif.Model.SearchText
import Verif.Props.MixerCode
import Verif.Props.SearchLog
import Verif.Model.ToolText
import Verif.Props.ToolText
import Verif.Props.SelfCheckCoupon
import Verif.Props.SelfCheckAll
import Verif.Props.Extra
import Verif.Model.DataCache
import Verif.Props.DataCache
import Verif.Model.SpeedCommand
import Verif.Props.SpeedCommand
import Verif.Model.DataBuild
import Verif.Props.DataBuild
import Verif.Model.Threads
import Verif.Props.Threads
import Verif.Model.Vectors
import Verif.Props.Vectors
import Verif.Props.Paths
import Verif.Model.DataStreams
import Verif.Props.DataStreams
import Verif.Model.Cells
import Verif.Props.Cells
import Verif.Props.Locality
import Verif.Props.BlindSpots
import Verif.Props.Published
