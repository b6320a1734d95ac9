import Verif.Props.Curve
import Verif.Props.Symplectic
import Verif.Props.Tree
import Verif.Props.Intersection
import Verif.Props.Edge
import Verif.Props.Homology
import Verif.Props.Periods
import Verif.Props.YData
import Verif.Props.Turn
import Verif.Props.TurnBall
import Verif.Props.SheetTree
import Verif.Props.Gauss
import Verif.Props.DoubleExp
import Verif.Props.Tau
import Verif.Props.Parse
import Verif.Props.Cli
import Verif.Props.Life
import Verif.Props.Utils
import Verif.Props.Bound
import Verif.Props.DeBound
import Verif.Props.GcParams
import Verif.Props.GcEdge
import Verif.Props.HyperPeriods
import Verif.Props.HyperInst
import Verif.Props.Segment
import Verif.Props.SheetSpan
import Verif.Proofs.PlaneTree
import Verif.Proofs.PlaneForm
import Verif.Proofs.PlaneRank
import Verif.Proofs.SheetNorm
import Verif.Proofs.TreeRank
import Verif.Proofs.UnitBlocks
import Verif.Props.Rank
import Verif.Props.HyperBasis
import Verif.Props.Crossing
import Verif.Props.HyperCurve
import Verif.Props.CurveInst
import Verif.Props.DeError
import Verif.Props.DeEdge
import Verif.Props.SuperPeriods
import Verif.Props.SuperInst
import Verif.Props.QuadCurve
import Verif.Props.Compute
import Verif.Props.ComputeInst
import Verif.Props.ComputeFails
import Verif.Props.ComputeRealFails
import Verif.Props.Orient
import Verif.Props.LeadingCoeff
import Verif.Props.Riemann
import Verif.Props.RiemannInst
import Verif.Props.Main
import Verif.Props.MainInst
import Verif.Props.ExtraPrec
import Verif.Props.ExtraPrecInst
import Verif.Props.ExtraPrecFails
import Verif.Model.Print
import Verif.Spec.PrintGp
import Verif.Proofs.PrintGp
import Verif.Props.PrintGp
import Verif.Props.PrintTree
import Verif.Props.PrintLoop
import Verif.Props.GcTree
import Verif.Props.DeTree
import Verif.Props.DeSame
import Verif.Props.DeConverge
import Verif.Proofs.PeriodsCongr
import Verif.Props.DePeriods
import Verif.Props.DeTau
import Verif.Props.RiemannRel
import Verif.Proofs.RealCurve
import Verif.Props.RiemannReal
import Verif.Proofs.HalfPlane
import Verif.Proofs.Green
import Verif.Proofs.RealLine
import Verif.Proofs.RealArea
import Verif.Proofs.RealGaps
import Verif.Proofs.RealForm
import Verif.Proofs.RealChain
import Verif.Proofs.RealTree
import Verif.Props.RiemannHyper
import Verif.Proofs.PowPlane
import Verif.Proofs.PowLine
import Verif.Proofs.PowArea
import Verif.Proofs.PowGaps
import Verif.Proofs.PowTotal
import Verif.Proofs.SuperChain
import Verif.Proofs.SuperTotal
import Verif.Proofs.SuperCurve
import Verif.Props.RiemannSuper
import Verif.Spec.Meet
import Verif.Proofs.Meet
import Verif.Proofs.MeetTree
import Verif.Proofs.MeetFails
import Verif.Props.Meet
import Verif.Props.MeetFails
import Verif.Proofs.EightCauchy
import Verif.Proofs.CrossLines
import Verif.Proofs.EightInt
import Verif.Proofs.EightTree
import Verif.Proofs.EightSum
import Verif.Props.RiemannFails
import Verif.Model.Stdout
import Verif.Spec.Stdout
import Verif.Props.Stdout
import Verif.Props.StdoutInst
import Verif.Proofs.CutPlane
import Verif.Proofs.CutJump
import Verif.Proofs.CutOm
import Verif.Proofs.CutRays
import Verif.Proofs.SuperForm
import Verif.Props.RiemannComplex
import Verif.Props.RiemannRun
import Verif.Props.Golden
import Verif.Props.MagCount
import Verif.Props.Random
import Verif.Props.Direct
import Verif.Props.GcExact
import Verif.Props.ComputeIdeal
import Verif.Props.Accuracy
import Verif.Props.Options
import Verif.Props.TauTotal
import Verif.Props.TauTri
import Verif.Props.CliNumbers
import Verif.Props.TauReal
import Verif.Props.HomologyTotal
import Verif.Props.CliFlags
import Verif.Props.DeTotal
import Verif.Props.SchemeMem
import Verif.Props.CliPrec
import Verif.Props.Affine
import Verif.Props.AffineTau
import Verif.Props.Mirror
import Verif.Model.DeRough
import Verif.Spec.DeRough
import Verif.Props.DeRough
import Verif.Model.VecR
import Verif.Props.VecR
import Verif.Model.TanhCosh
import Verif.Props.TanhCosh
import Verif.Props.MirrorTau
