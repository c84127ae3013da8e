import Verif.Arr.Model
import Verif.Arr.Props
import Verif.Box.Model
import Verif.Box.Props
import Verif.Core.Blas
import Verif.Core.Buf
import Verif.Core.Fill
import Verif.Core.FillV
import Verif.Core.Float
import Verif.Core.Mem
import Verif.Core.Sum
import Verif.Cross.Adapt
import Verif.Cross.AdaptProps
import Verif.Cross.AdaptTt
import Verif.Cross.Model
import Verif.Cross.Props
import Verif.Cross.SweepProps
import Verif.Cross.TtLemmas
import Verif.Cross.TtModel
import Verif.Cross.TtProps
import Verif.Cross.TtSteps
import Verif.Dif.Chain
import Verif.Dif.Main
import Verif.Dif.Model
import Verif.Dif.Props
import Verif.Dmrg.DifModel
import Verif.Dmrg.DifProps
import Verif.Dmrg.Left
import Verif.Dmrg.Lemmas
import Verif.Dmrg.Model
import Verif.Dmrg.PolyInst
import Verif.Dmrg.Props
import Verif.Dmrg.Right
import Verif.Fft.Cheb
import Verif.Fft.FourierAlg
import Verif.Fft.FourierApprox
import Verif.Fft.FourierBasis
import Verif.Fft.FourierModel
import Verif.Fft.FourierProd
import Verif.Fft.FourierProps
import Verif.Fft.Model
import Verif.Fft.Props
import Verif.Ft.Alg
import Verif.Ft.AlgLemmas
import Verif.Ft.AlgProps
import Verif.Ft.ArrProps
import Verif.Ft.Build
import Verif.Ft.BuildLemmas
import Verif.Ft.BuildProps
import Verif.Ft.FiberProps
import Verif.Ft.Grad
import Verif.Ft.GradInner
import Verif.Ft.GradInnerProps
import Verif.Ft.GradLemmas
import Verif.Ft.GradProps
import Verif.Ft.InnerAlg
import Verif.Ft.IntProps
import Verif.Ft.Integ
import Verif.Ft.Lemmas
import Verif.Ft.Model
import Verif.Ft.Mul
import Verif.Ft.MulLemmas
import Verif.Ft.MulProps
import Verif.Ft.Param
import Verif.Ft.ParamLemmas
import Verif.Ft.ParamProps
import Verif.Ft.PertProps
import Verif.Ft.Prefix
import Verif.Ft.Props
import Verif.Ft.QuadLemmas
import Verif.Ft.Spec
import Verif.Ft.Subset
import Verif.Ft.SubsetProps
import Verif.Fwrap.LifeProps
import Verif.Fwrap.Model
import Verif.Fwrap.Props
import Verif.Gf.Model
import Verif.Gf.OneZero
import Verif.Gf.OneZeroProps
import Verif.Gf.Props
import Verif.Gf.Qma
import Verif.Gf.QmaProps
import Verif.Gf.Quasi
import Verif.Gf.QuasiProps
import Verif.Ind.Lemmas
import Verif.Ind.Model
import Verif.Ind.Props
import Verif.Kern.AlgProps
import Verif.Kern.Basis
import Verif.Kern.BuildProps
import Verif.Kern.Gauss
import Verif.Kern.Model
import Verif.Kern.Props
import Verif.Lin.AlgProps
import Verif.Lin.Approx
import Verif.Lin.ApproxProps
import Verif.Lin.GradProps
import Verif.Lin.IntProps
import Verif.Lin.Lemmas
import Verif.Lin.MatUtil
import Verif.Lin.MatUtilProps
import Verif.Lin.MergeProps
import Verif.Lin.Model
import Verif.Lin.Orth
import Verif.Lin.OrthProps
import Verif.Lin.Props
import Verif.Lin.Spec
import Verif.Mon.Lemmas
import Verif.Mon.Model
import Verif.Mon.Props
import Verif.Mv.Inst
import Verif.Mv.Law
import Verif.Mv.Lemmas
import Verif.Mv.Model
import Verif.Mv.Pinv
import Verif.Mv.Props
import Verif.Opt.BfgsAlg
import Verif.Opt.BfgsDescent
import Verif.Opt.BfgsLemmas
import Verif.Opt.BfgsModel
import Verif.Opt.BfgsProps
import Verif.Opt.BoxProps
import Verif.Opt.BruteProps
import Verif.Opt.Deriv
import Verif.Opt.GradProps
import Verif.Opt.LbfgsAlg
import Verif.Opt.LbfgsList
import Verif.Opt.LbfgsModel
import Verif.Opt.LbfgsProps
import Verif.Opt.Lemmas
import Verif.Opt.Model
import Verif.Opt.ObjMain
import Verif.Opt.ObjModel
import Verif.Opt.ObjProps
import Verif.Opt.ObjTop
import Verif.Opt.SgdModel
import Verif.Opt.SgdProps
import Verif.Opt.Spec
import Verif.Opt.StandBfgs
import Verif.Opt.StandConv
import Verif.Opt.StandLs
import Verif.Opt.StandModel
import Verif.Opt.StandNewton
import Verif.Opt.StandProps
import Verif.Opt.StrongProps
import Verif.Opt.WolfeProps
import Verif.Packed.Model
import Verif.Packed.Props
import Verif.Pc.GradProps
import Verif.Pc.IntProps
import Verif.Pc.Model
import Verif.Pc.Orth
import Verif.Pc.Props
import Verif.Poly.AdaptGauss
import Verif.Poly.AdaptProps
import Verif.Poly.Alg
import Verif.Poly.AlgLemmas
import Verif.Poly.AlgProps
import Verif.Poly.Approx
import Verif.Poly.ApproxLemmas
import Verif.Poly.ApproxProps
import Verif.Poly.ArrProps
import Verif.Poly.BasisProps
import Verif.Poly.CcProj
import Verif.Poly.ChebBasis
import Verif.Poly.DDerivProps
import Verif.Poly.DerivExp
import Verif.Poly.DerivProps
import Verif.Poly.EvalLemmas
import Verif.Poly.EvalProps
import Verif.Poly.ExtProps
import Verif.Poly.Families
import Verif.Poly.GaussProps
import Verif.Poly.Hermite
import Verif.Poly.IntProps
import Verif.Poly.Integ
import Verif.Poly.Legendre
import Verif.Poly.Make
import Verif.Poly.MakeProps
import Verif.Poly.MapProps
import Verif.Poly.Model
import Verif.Poly.NormProps
import Verif.Poly.Prod
import Verif.Poly.ProdLemmas
import Verif.Poly.ProdProps
import Verif.Poly.Roots
import Verif.Poly.RootsLemmas
import Verif.Poly.RootsProps
import Verif.Poly.Spec
import Verif.Poly.Std
import Verif.Poly.StdProps
import Verif.Poly.StdRootsProps
import Verif.Prob.Calls
import Verif.Prob.Combos
import Verif.Prob.Cond
import Verif.Prob.DensDeriv
import Verif.Prob.DensMass
import Verif.Prob.DensProps
import Verif.Prob.FtSobol
import Verif.Prob.LtModel
import Verif.Prob.LtProps
import Verif.Prob.LtSerial
import Verif.Prob.Model
import Verif.Prob.Nonneg
import Verif.Prob.SobolProps
import Verif.Prob.TreeLemmas
import Verif.Prob.TreeProps
import Verif.Pw.Approx
import Verif.Pw.ApproxLemmas
import Verif.Pw.ApproxProps
import Verif.Pw.Ext
import Verif.Pw.ExtProps
import Verif.Pw.FinerGrid
import Verif.Pw.IntProps
import Verif.Pw.Jump
import Verif.Pw.JumpLemmas
import Verif.Pw.JumpProps
import Verif.Pw.Lemmas
import Verif.Pw.MatchEx
import Verif.Pw.MatchNodes
import Verif.Pw.MatchProps
import Verif.Pw.Model
import Verif.Pw.Props
import Verif.Pw.Spec
import Verif.Pw.Split
import Verif.Pw.SplitProps
import Verif.Qr.Gs
import Verif.Qr.GsProps
import Verif.Qr.HhStep
import Verif.Qr.HqrLemmas
import Verif.Qr.HqrStep
import Verif.Qr.Lemmas
import Verif.Qr.LuArr
import Verif.Qr.LuLemmas
import Verif.Qr.LuModel
import Verif.Qr.LuProps
import Verif.Qr.LuTheory
import Verif.Qr.Model
import Verif.Qr.Props
import Verif.Qr.Spec
import Verif.Qr.Theory
import Verif.Quad.CC
import Verif.Quad.CosSum
import Verif.Quad.GaussModel
import Verif.Quad.Golub
import Verif.Quad.Model
import Verif.Quad.Newton
import Verif.Reg.Model
import Verif.Reg.PolyReg
import Verif.Reg.Props
import Verif.Round.Eps
import Verif.Round.Gram
import Verif.Round.Inst
import Verif.Round.Main
import Verif.Round.Model
import Verif.Round.Orthor
import Verif.Round.Props
import Verif.Round.Step
import Verif.Round.Svd
import Verif.Serial.Lemmas
import Verif.Serial.Model
import Verif.Serial.Props
import Verif.Serial.Spec
import Verif.Skel.Lemmas
import Verif.Skel.Model
import Verif.Skel.Props
import Verif.Skel.SkelLemmas
import Verif.Skel.SkelModel
import Verif.Skel.SkelProps
import Verif.Sl.AioModel
import Verif.Sl.AioProps
import Verif.Sl.Alloc
import Verif.Sl.AllocProps
import Verif.Sl.AlsCore
import Verif.Sl.AlsModel
import Verif.Sl.AlsProps
import Verif.Sl.AlsRun
import Verif.Sl.Bwd
import Verif.Sl.CvModel
import Verif.Sl.CvProps
import Verif.Sl.Fwd
import Verif.Sl.GridModel
import Verif.Sl.GridProps
import Verif.Sl.Guess
import Verif.Sl.GuessProps
import Verif.Sl.HessModel
import Verif.Sl.HessProps
import Verif.Sl.HessSpec
import Verif.Sl.KristModel
import Verif.Sl.KristProps
import Verif.Sl.Model
import Verif.Sl.ObjModel
import Verif.Sl.ObjProps
import Verif.Sl.Props
import Verif.Sl.RankModel
import Verif.Sl.RankProps
import Verif.Sl.RestrictModel
import Verif.Sl.RestrictProps
import Verif.Sl.Spec
import Verif.Str.Lemmas
import Verif.Str.Model
import Verif.Str.Props
import Verif.Tt.Canon
import Verif.Tt.DotProps
import Verif.Tt.FullProps
import Verif.Tt.Lemmas
import Verif.Tt.Model
import Verif.Tt.Props
import Verif.Tt.RightOrth
import Verif.Tt.RoundTtProps
import Verif.Tt.RqLaw
import Verif.Tt.Spec
import Verif.Tt.SvdBuilt
import Verif.Tt.SvdErr
import Verif.Tt.SvdModel
import Verif.Tt.SvdRect
import Verif.Tt.TensorProps
import Verif.Xapp.AdaptMain
import Verif.Xapp.AdaptModel
import Verif.Xapp.AdaptProps
import Verif.Xapp.Loop
import Verif.Xapp.Model
import Verif.Xapp.Prep
import Verif.Xapp.Props
import Verif.Xapp.Session
import Verif.Xapp.SessionProps
import Verif.Xapp.Span
import Verif.Xapp.Step
import Verif.Xapp.Sweep
