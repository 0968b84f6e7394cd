import Verif.Lemmas.Poly
import Verif.Lemmas.PwPoly
import Verif.Lemmas.PwInteg
import Verif.Props.Poly
import Verif.Props.PwCore
import Verif.Lemmas.Knots
import Verif.Lemmas.PwArith
import Verif.Props.PwArith
import Verif.Props.PwMisc
import Verif.Lemmas.Hermite
import Verif.Props.PwInit
import Verif.Props.SolvePer
import Verif.Props.Spline
import Verif.Props.Pline
import Verif.Props.PlineShape
import Verif.Props.SplineOk
import Verif.Props.SplineIff
import Verif.Props.Plfit
import Verif.Props.PlfitPer
import Verif.Props.PlfitOk
import Verif.Props.BasicElem
import Verif.Props.BasicAxis
import Verif.Props.BasicSpan
import Verif.Props.BasicSpanl
import Verif.Props.BasicCat
import Verif.Props.BasicAbs
import Verif.Props.ItemAttr
import Verif.Props.Pcwise
import Verif.Props.Fermi
import Verif.Props.FermiAcc
import Verif.Props.FermiAccHi
import Verif.Props.FermiInv
import Verif.Props.Randomx
import Verif.Props.Regress
import Verif.Props.Levmar
import Verif.Props.LevmarTerm
import Verif.Props.NumPartials
import Verif.Props.LevmarChi
import Verif.Props.LevmarCov
import Verif.Props.LevmarEx
import Verif.Props.ModelFit
import Verif.Props.LevmarNd
import Verif.Props.Plot
import Verif.Props.Reloadx
import Verif.Props.Splfit
import Verif.Props.SplfitOk
import Verif.Props.SplfitCost
import Verif.Props.SplfitPer
import Verif.Props.SplfitPerOk
import Verif.Props.SplfitPerEx
import Verif.Props.Roots
import Verif.Props.RootsEx
import Verif.Props.Linear
import Verif.Props.FitComp
import Verif.Props.FitNd
import Verif.Props.RandDist
import Verif.Props.RegressStat
import Verif.Props.Interactive
import Verif.Props.Float
import Verif.Props.Nan
import Verif.Props.Heap
import Verif.Props.InitMem
import Verif.Props.Calculus
import Verif.Props.Approx
import Verif.Props.SplineMin
import Verif.Props.SmoothDiff
import Verif.Props.PolyNd
import Verif.Props.PwNd
import Verif.Props.PwNdInteg
import Verif.Props.PwInitNd
import Verif.Props.PwIndex
import Verif.Props.Rebin
import Verif.Props.LevmarLin
import Verif.Props.LevmarLinOk
import Verif.Props.LevmarBounds
import Verif.Props.SplineErr
import Verif.Props.PerArith
import Verif.Props.HeapVal
import Verif.Props.FitAgree
import Verif.Props.AtanOut
import Verif.Props.LmConfig
import Verif.Props.FitSame
import Verif.Props.SplineUniq
import Verif.Props.SplineDec
import Verif.Props.FitMono
import Verif.Props.FitLinear
import Verif.Props.FitUnits
import Verif.Props.RegressLaws
import Verif.Props.Leibniz
import Verif.Props.RegressOrder
import Verif.Props.Chi2prob
import Verif.Props.FermiLimit
import Verif.Props.RegressSpan
import Verif.Props.InitUnits
import Verif.Props.SpanLaws
