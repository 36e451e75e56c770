import Verif.Props.Seq
import Verif.Props.Chars
import Verif.Props.Num
import Verif.Props.Prime
import Verif.Props.Primes
import Verif.Props.RandInt
import Verif.Props.Shuffle
import Verif.Props.Distinct
import Verif.Props.RandSeq
import Verif.Props.Bracket
import Verif.Props.PermCycles
import Verif.Props.PermFix
import Verif.Props.RandGeo
import Verif.Props.Geo
import Verif.Props.Input
import Verif.Props.Constraint
import Verif.Props.Command
import Verif.Props.Multipass
import Verif.Props.GraphVal
import Verif.Props.Rng
import Verif.Props.Aes
import Verif.Props.Png
import Verif.Props.Svg
import Verif.Props.GraphGen
import Verif.Props.GraphOps
import Verif.Props.GraphPower
import Verif.Props.Families
import Verif.Props.RandomGraph
import Verif.Props.Tree
import Verif.Props.DegreeGraph
import Verif.Props.Simple
import Verif.Props.Equidist
import Verif.Props.Init
import Verif.Props.Convex
import Verif.Props.Ideal
import Verif.Props.Ideal2
import Verif.Props.RandomGraphP
import Verif.Props.Growing
import Verif.Props.Flow2
import Verif.Props.Float
import Verif.Props.GraphIO
import Verif.Props.SvgText
import Verif.Props.RealText
import Verif.Props.FailMessage
import Verif.Props.RealRange
import Verif.Props.RealLaw
import Verif.Props.ExpectMessage
import Verif.Props.Examples
import Verif.Props.Extremes
import Verif.Props.InputShape
import Verif.Props.SortedLaw
import Verif.Props.Agreement
import Verif.Props.ConvexSimple
import Verif.Props.GraphExample
import Verif.Props.GraphLaw
import Verif.Props.VisualizerExample
import Verif.Props.GraphReal
import Verif.Props.Btrs
import Verif.Props.GraphReal2
import Verif.Props.BinomialIn
import Verif.Props.ConstraintRead
import Verif.Props.ConvexEnds
import Verif.Props.Helpers
import Verif.Props.AesEquidist
import Verif.Lemmas.ShuffleLaw
import Verif.Spec.Reproducible
import Verif.Props.Reproducible
import Verif.Spec.Engine
import Verif.Lemmas.Engine
import Verif.Props.Engine
import Verif.Spec.MinCost
import Verif.Lemmas.MinCost
import Verif.Lemmas.McTransport
import Verif.Props.MinCost
import Verif.Spec.EngineCost
import Verif.Props.EngineCost
import Verif.Model.ConvexHull
import Verif.Spec.Hull
import Verif.Lemmas.ConvexHull
import Verif.Props.ConvexHull
import Verif.Model.ConvexDisk
import Verif.Props.ConvexDisk
import Verif.Model.JavaSortHack
import Verif.Lemmas.JavaSortHack
import Verif.Props.JavaSortHack
import Verif.Model.Polygon
import Verif.Spec.Polygon
import Verif.Lemmas.Polygon
import Verif.Props.Polygon
import Verif.Model.Files
import Verif.Spec.Files
import Verif.Lemmas.Files
import Verif.Props.Files
import Verif.Model.Writer
import Verif.Spec.Writer
import Verif.Props.Writer
import Verif.Model.Lifetime
import Verif.Spec.Lifetime
import Verif.Props.Lifetime
import Verif.Model.CaseRegex
import Verif.Spec.CaseRegex
import Verif.Props.CaseRegex
import Verif.Model.ArchiveMain
import Verif.Spec.ArchiveMain
import Verif.Props.ArchiveMain
import Verif.Model.Alphabet
import Verif.Spec.Alphabet
import Verif.Props.Alphabet
import Verif.Model.Sources
import Verif.Spec.Sources
import Verif.Props.Sources
import Verif.Props.RealEnds
import Verif.Props.RealUniform
import Verif.Model.WordFn
import Verif.Spec.WordFn
import Verif.Lemmas.WordFn
import Verif.Props.WordFn
import Verif.Props.GrowingWords
import Verif.Model.FloatDist
import Verif.Spec.FloatDist
import Verif.Lemmas.FloatDist
import Verif.Props.FloatDist
import Verif.Spec.Rejection
import Verif.Props.Rejection
import Verif.Props.BoundedLaws
import Verif.Model.FloatNormal
import Verif.Spec.FloatNormal
import Verif.Lemmas.TwoReals
import Verif.Lemmas.TwoNormals
import Verif.Lemmas.FloatNormal
import Verif.Props.FloatNormal
import Verif.Model.FloatBinomial
import Verif.Spec.FloatBinomial
import Verif.Lemmas.FloatBinomial
import Verif.Props.FloatBinomial
import Verif.Model.FloatBtrs
import Verif.Props.FloatBtrs
