import Verif.BytePackerModel
import Verif.BytePackerLemmas
import Verif.BytePackerProps
import Verif.DictionaryModel
import Verif.DictionaryLemmas
import Verif.DictionaryProps
import Verif.FlModel
import Verif.FlLemmas
import Verif.StochasticModel
import Verif.StochasticLemmas
import Verif.StochasticProps
import Verif.LoopModel
import Verif.LoopLemmas
import Verif.WeightModel
import Verif.WeightLemmas
import Verif.WeightProps
import Verif.ScaleLemmas
import Verif.TimeBlockModel
import Verif.TimeBlockLemmas
import Verif.NormSpec
import Verif.RowProps
import Verif.RFProps
import Verif.RFFloat
import Verif.BlockProps
import Verif.AFModel
import Verif.AFLemmas
import Verif.AFFit
import Verif.AFProps
import Verif.FloatBits
import Verif.AFLayout
import Verif.LayoutModel
import Verif.LayoutProps
import Verif.StManModel
import Verif.HeaderProps
import Verif.StManProps
import Verif.StorageProps
import Verif.ColumnModel
import Verif.ColumnLemmas
import Verif.ColumnProps
import Verif.ColumnReads
import Verif.ColumnSeq
import Verif.ColumnWhole
import Verif.ColumnRefused
import Verif.ColumnCopy
import Verif.ColumnAdd
import Verif.UVectorModel
import Verif.UVectorLemmas
import Verif.UVectorSpec
import Verif.UVectorProps
import Verif.UVectorAlias
import Verif.UVectorCompare
import Verif.ToolsModel
import Verif.CheckProps
import Verif.CheckRegular
import Verif.CmdProps
import Verif.MoveProps
import Verif.TableProps
import Verif.ReadOnly
import Verif.Damaged
import Verif.HeaderStream
import Verif.Serial
import Verif.Locality
import Verif.WeightStable
import Verif.Power
import Verif.Order
import Verif.Report
import Verif.PowerRF
import Verif.PowerAF
import Verif.PowerAFProps
import Verif.Permute
import Verif.OrderRF
import Verif.AFPols
import Verif.AFPolsProps
import Verif.ReopenProps
import Verif.RowFloat
import Verif.EndModel
import Verif.EndProps
import Verif.EndRF
import Verif.EncoderProps
import Verif.QuantileModel
import Verif.QuantileLemmas
import Verif.NormalLemmas
import Verif.QuantileProps
import Verif.QuantileTables
import Verif.ColumnOrder
import Verif.ManagerProps
import Verif.StochasticSym
import Verif.StopwatchModel
import Verif.StopwatchProps
import Verif.PrepareModel
import Verif.PrepareProps
import Verif.EndPrepare
import Verif.AFFloatLemmas
import Verif.AFFloat
import Verif.AFNan
import Verif.AFRangeLemmas
import Verif.AFRange
import Verif.AFModerate
import Verif.AFAuto
import Verif.AFWeak
import Verif.AFZero
import Verif.EndAF
import Verif.DitherFloat
import Verif.ColumnUpdate
import Verif.ColumnAgain
import Verif.MultiModel
import Verif.MultiLemmas
import Verif.MultiProps
import Verif.MultiOne
import Verif.RaceModel
import Verif.RaceLemmas
import Verif.RaceInv
import Verif.RaceSteps
import Verif.RaceProps
import Verif.SplitModel
import Verif.SplitLemmas
import Verif.SplitProps
import Verif.StmtModel
import Verif.StmtLemmas
import Verif.StmtSim
import Verif.StmtClient
import Verif.StmtProps
import Verif.MStmtModel
import Verif.MStmtLemmas
import Verif.MStmtProps
import Verif.LockModel
import Verif.LockLemmas
import Verif.LockProps
import Verif.StreamModel
import Verif.StreamProps
import Verif.WorldModel
import Verif.WorldLemmas
import Verif.WorldProps
import Verif.WorldTable
import Verif.WorldSettings
import Verif.WorldEnd
import Verif.SessionModel
import Verif.SessionLemmas
import Verif.SessionProps
import Verif.SessionEnd
import Verif.SessionCodec
import Verif.SessionTable
import Verif.SessionClose
import Verif.SessionLife
import Verif.CompressModel
import Verif.Reorder
import Verif.CompressLemmas
import Verif.CompressProgram
import Verif.CompressManager
import Verif.CompressWorld
import Verif.CompressProps
import Verif.CompressReturn
import Verif.CompressSample
import Verif.CompressQuantiser
import Verif.CompressMain
import Verif.DictMemory
import Verif.AnyArgs
import Verif.AnyDecompress
import Verif.Undefined
import Verif.PackPrefix
import Verif.Incomplete
import Verif.QuantileSym
import Verif.QuantiserProps
import Verif.StudentProps
import Verif.MeanRow
import Verif.Twister
import Verif.TwisterProps
import Verif.TwisterColumn
import Verif.MeanRF
import Verif.MeanAF
import Verif.MeanSquare
import Verif.MeanAverage
import Verif.MeanAverageRF
import Verif.Again
import Verif.AgainUniform
import Verif.AccessProps
import Verif.ThreadGroup
import Verif.StartThreads
import Verif.Threadless
import Verif.ArrayStorage
import Verif.ArrayBlock
import Verif.FailedLoad
