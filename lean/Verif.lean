import Verif.Affine.Eval
import Verif.Affine.Lemmas
import Verif.Affine.Linear
import Verif.Affine.Model
import Verif.Affine.Nonlin
import Verif.Affine.Ranges
import Verif.Affine.Reduce
import Verif.Analysis.Krawczyk
import Verif.Analysis.Lin
import Verif.Analysis.NewtonCotes
import Verif.Analysis.NewtonCotes2
import Verif.Analysis.Smith
import Verif.Analysis.Taylor
import Verif.Autodif.Inst
import Verif.Autodif.Lemmas
import Verif.Autodif.Model
import Verif.Autodif.Sound
import Verif.Complex.Cardano
import Verif.Complex.CardanoLemmas
import Verif.Complex.Dka
import Verif.Complex.DkaLemmas
import Verif.Complex.DkaOk
import Verif.Complex.Lemmas
import Verif.Complex.Model
import Verif.Conv.Base
import Verif.Conv.DDModel
import Verif.Conv.DDPrint
import Verif.Conv.DDRead
import Verif.Conv.Dec
import Verif.Conv.Exact
import Verif.Conv.Model
import Verif.Conv.Print
import Verif.Conv.Read
import Verif.Conv.ReadMain
import Verif.Conv.ReadNum
import Verif.Conv.Size
import Verif.Conv.Spec
import Verif.Double.Consts
import Verif.Double.Conv
import Verif.Double.DD
import Verif.Double.DDAvx
import Verif.Double.DDAvxLemmas
import Verif.Double.DDDiv
import Verif.Double.DDLemmas
import Verif.Double.DDMixed
import Verif.Double.DDNohw
import Verif.Double.DDNohwLemmas
import Verif.Double.DDSqrt
import Verif.Double.Elem
import Verif.Double.Emu
import Verif.Double.EmuDiv
import Verif.Double.EmuLemmas
import Verif.Double.EmuMul
import Verif.Double.EmuOps
import Verif.Double.EmuSqrt
import Verif.Double.Fin
import Verif.Double.Hw
import Verif.Double.Mode
import Verif.Float.EFT
import Verif.Float.Exact
import Verif.Float.Format
import Verif.Float.Lemmas
import Verif.Float.Ops
import Verif.Float.Round
import Verif.Float.SqrtLemmas
import Verif.Float.Succ
import Verif.Interval.Basic
import Verif.Interval.DivPow
import Verif.Interval.Elem
import Verif.Interval.ElemAtan2
import Verif.Interval.ElemExp
import Verif.Interval.ElemInv
import Verif.Interval.ElemLog
import Verif.Interval.ElemMem
import Verif.Interval.ElemSin
import Verif.Interval.ElemTrig
import Verif.Interval.Mem
import Verif.Ode.Defint
import Verif.Ode.DefintAuto
import Verif.Ode.DefintLemmas
import Verif.Ode.DoubleNewtonCotes
import Verif.Ode.DoubleNewtonCotesLemmas
import Verif.Ode.Enclose
import Verif.Ode.Formal
import Verif.Ode.General
import Verif.Ode.HighDeriv
import Verif.Ode.Lohner
import Verif.Ode.LohnerLemmas
import Verif.Ode.Long
import Verif.Ode.Loop
import Verif.Ode.Maffine
import Verif.Ode.Maps
import Verif.Ode.ModeInv
import Verif.Ode.Model
import Verif.Ode.NewtonCotes
import Verif.Ode.NewtonCotesLemmas
import Verif.Ode.OdeAutodif
import Verif.Ode.OdeQr
import Verif.Ode.Odescale
import Verif.Ode.Picard
import Verif.Ode.Radius
import Verif.Ode.Run
import Verif.Ode.Singular
import Verif.Ode.SingularAuto
import Verif.Ode.SingularAutoLemmas
import Verif.Ode.SingularLemmas
import Verif.Ode.SingularLog
import Verif.Ode.SingularPower
import Verif.Ode.SingularRem
import Verif.Ode.Smooth
import Verif.Ode.Sound
import Verif.Ode.Step
import Verif.Ode.Tube
import Verif.Ode.Weighted
import Verif.Props.Affine
import Verif.Props.Allsol
import Verif.Props.AllsolPar
import Verif.Props.AllsolSimple
import Verif.Props.Arith
import Verif.Props.Autodif
import Verif.Props.Beta
import Verif.Props.BetaRun
import Verif.Props.CacheRace
import Verif.Props.Cardano
import Verif.Props.Complex
import Verif.Props.Conv
import Verif.Props.ConvDD
import Verif.Props.DD
import Verif.Props.DDAvx
import Verif.Props.DDMixed
import Verif.Props.DDNohw
import Verif.Props.Defint
import Verif.Props.Dka
import Verif.Props.DoubleNewtonCotes
import Verif.Props.Eig
import Verif.Props.Elem
import Verif.Props.ElemHang
import Verif.Props.Emu
import Verif.Props.Gamma
import Verif.Props.GammaPole
import Verif.Props.GammaRun
import Verif.Props.Geoseries
import Verif.Props.HighDeriv
import Verif.Props.Hypergeom
import Verif.Props.Kkt
import Verif.Props.Kraw
import Verif.Props.Lobachevsky
import Verif.Props.Lohner
import Verif.Props.Lp
import Verif.Props.Maffine
import Verif.Props.Maps
import Verif.Props.Mode
import Verif.Props.NewtonCotes
import Verif.Props.Ode
import Verif.Props.OdeAutodif
import Verif.Props.OdeLong
import Verif.Props.OdeQr
import Verif.Props.Odescale
import Verif.Props.Optimal
import Verif.Props.Optimize
import Verif.Props.Psa
import Verif.Props.Sets
import Verif.Props.Singular
import Verif.Props.SingularAuto
import Verif.Props.SingularAutoPower
import Verif.Props.SingularLog
import Verif.Props.SingularRem
import Verif.Props.Trigamma
import Verif.Props.Vleq
import Verif.Psa.AutodifPsa
import Verif.Psa.Eval
import Verif.Psa.Funcs
import Verif.Psa.Hoare
import Verif.Psa.Inverse
import Verif.Psa.Jet
import Verif.Psa.JetExpr
import Verif.Psa.Len
import Verif.Psa.Model
import Verif.Psa.Ops
import Verif.Psa.Param
import Verif.Psa.ParamAD
import Verif.Psa.Run
import Verif.Psa.Taylor
import Verif.Rop
import Verif.Solver.Allsol
import Verif.Solver.AllsolBox
import Verif.Solver.AllsolKeep
import Verif.Solver.AllsolLemmas
import Verif.Solver.AllsolPar
import Verif.Solver.AllsolParLemmas
import Verif.Solver.AllsolSimple
import Verif.Solver.AllsolTrim
import Verif.Solver.Cache
import Verif.Solver.Eig
import Verif.Solver.Kkt
import Verif.Solver.Kraw
import Verif.Solver.KrawLemmas
import Verif.Solver.LinAlg
import Verif.Solver.LinLemmas
import Verif.Solver.Lp
import Verif.Solver.LpLemmas
import Verif.Solver.LpReal
import Verif.Solver.LpSpec
import Verif.Solver.LpStart
import Verif.Solver.Optimize
import Verif.Solver.OptimizeLemmas
import Verif.Solver.Recover
import Verif.Solver.Vleq
import Verif.Special.Beta
import Verif.Special.BetaLemmas
import Verif.Special.Gamma
import Verif.Special.GammaHull
import Verif.Special.GammaLemmas
import Verif.Special.GammaMath
import Verif.Special.Geoseries
import Verif.Special.GeoseriesLemmas
import Verif.Special.Hypergeom
import Verif.Special.LobaReal
import Verif.Special.Lobachevsky
import Verif.Special.Trigamma
