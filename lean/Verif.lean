import Verif.Props.Base
import Verif.Props.Linalg
import Verif.Props.Emp
import Verif.Props.Ewa
import Verif.Props.Score
import Verif.Props.Shipped
import Verif.Lemmas.Reduce
import Verif.Lemmas.Blocks
import Verif.Props.Blocks
import Verif.Props.Schur
import Verif.Lemmas.Recency
import Verif.Props.Location
import Verif.Lemmas.Innov
import Verif.Props.Diagonal
import Verif.Props.Shrinkage
import Verif.Props.Robust
import Verif.Props.Dynamic
import Verif.Props.Conditional
import Verif.Props.Keyed
import Verif.Props.DynUniverse
import Verif.Props.Recommend
import Verif.Props.Features
import Verif.Props.Assessors
import Verif.Props.AssessBlocks
import Verif.Props.AssessOther
import Verif.Props.AssessProper
import Verif.Props.Shapes
import Verif.Props.Heap
import Verif.Props.KeyedOut
import Verif.Props.Invert
import Verif.Props.Serial
import Verif.Props.Symmetry
import Verif.Props.Relabel
import Verif.Props.Translate
import Verif.Props.Factor
import Verif.Props.TheoryScalar
import Verif.Props.TheoryBlocks
import Verif.Props.TheoryCanon
import Verif.Props.TheoryGammaStar
import Verif.Props.TheoryOperator
import Verif.Props.AssessCall
import Verif.Props.ConditionalPickle
import Verif.Props.Rounding
import Verif.Props.RoundingError
import Verif.Props.RoundingDouble
import Verif.Props.RoundingPsd
import Verif.Props.RoundingDiagonal
import Verif.Props.Sampling
import Verif.Props.SamplingEwa
import Verif.Props.PowerProject
import Verif.Props.PowerJudges
import Verif.Props.PowerOther
import Verif.Props.PowerBlocks
import Verif.Props.PowerRun
import Verif.Props.Nan
import Verif.Props.Params
import Verif.Props.Ensembles
import Verif.Props.Oos
import Verif.Props.Defaults
import Verif.Props.OosShipped
import Verif.Props.Equity
import Verif.Props.Bakeoff
import Verif.Props.Spiked
import Verif.Props.SpikedDraws
import Verif.Props.Train
import Verif.Props.Export
import Verif.Props.ScoreShapes
import Verif.Props.GeodesicBetween
import Verif.Props.Bounded
import Verif.Props.SchurSingular
import Verif.Props.Masking
import Verif.Props.Stability
import Verif.Props.Neutral
import Verif.Props.Invisible
import Verif.Props.Differencing
import Verif.Props.PowerTables
import Verif.Props.DccConditional
import Verif.Props.StateSize
import Verif.Props.NanShrink
import Verif.Props.StructuredPower
import Verif.Props.GammaSim
import Verif.Props.TheorySearch
import Verif.Props.Memory
import Verif.Props.Legacy
import Verif.Props.Continuity
import Verif.Props.Jumps
import Verif.Props.Interrupted
import Verif.Props.InterruptedDyn
import Verif.Props.InterruptedCond
import Verif.Props.Names
import Verif.Props.CondShapes
import Verif.Props.Forgetting
import Verif.Props.ForgettingMore
import Verif.Props.ForgettingGeodesic
import Verif.Props.ForgettingNot
import Verif.Props.NewLevel
import Verif.Props.Snapshot
import Verif.Props.RoundingCorr
import Verif.Props.ReprObjects
import Verif.Props.Threads
import Verif.Props.ThreadRaces
import Verif.Props.Imputation
import Verif.Props.ExactSymmetry
import Verif.Props.Gaps
import Verif.Props.Inf
import Verif.Props.Relation
import Verif.Props.Cost
import Verif.Props.CostMore
import Verif.Props.CostKeyed
import Verif.Props.Columns
import Verif.Props.SuggestSame
import Verif.Props.Pooling
import Verif.Props.ShrinkFades
import Verif.Props.ForgettingSchur
import Verif.Props.SignsNoise
import Verif.Props.Calibration
import Verif.Props.LongRun
import Verif.Props.Delivery
import Verif.Props.Competes
import Verif.Props.Regression
import Verif.Props.OneRow
import Verif.Props.Portfolio
import Verif.Props.Ledger
import Verif.Props.RankOne
import Verif.Props.Superpose
import Verif.Props.Reach
