import Verif.Arith.Props
import Verif.Marith.Props
import Verif.Small.RatProps
import Verif.Small.XmodProps
import Verif.Small.CodesProps
import Verif.Svec.Props
import Verif.Forms.CubicProps
import Verif.Forms.JInv
import Verif.Forms.Quartic
import Verif.Forms.MinimAll
import Verif.Forms.ReduceProps
import Verif.Forms.NewEquivProps
import Verif.Curve.Minimal
import Verif.Curve.PointTests
import Verif.Curve.Order
import Verif.Mat.SubProps
import Verif.Symb.Props
import Verif.Symb.CuspProps
import Verif.Bits.Props
import Verif.Bits.SqfProps
import Verif.Bits.MakeNum
import Verif.Curve.DivPol
import Verif.Forms.Equiv
import Verif.Pool.Props
import Verif.Primes.Default
import Verif.Tate.Tamagawa
import Verif.Local.HilbertProd
import Verif.Smat.TransProps
import Verif.Lll.Short
import Verif.Local.LocallySoluble
import Verif.Tate.Conductor
import Verif.Pmod.Relation
import Verif.Pmod.HasseCurve
import Verif.Elim.Props
import Verif.Elim.SubProps
import Verif.Hom.Props
import Verif.Hom.Gamma
import Verif.Hom.Heil
import Verif.Hom.Commute
import Verif.Hom.CuspOp
import Verif.Lift.VecProps
import Verif.Twoadic.Props
import Verif.Legendre.Props
import Verif.Legendre.Props2
import Verif.Legendre.Props3
import Verif.Curve.Qc
import Verif.Search.Props
import Verif.Search.Sieve
import Verif.Stoll.Props
import Verif.Ff.Props
import Verif.Ff.TlssMap
import Verif.Sat.Main
import Verif.Newf.Level11
import Verif.Newf.EigProps
import Verif.Egr.MapEx
import Verif.Sift.Props
import Verif.Old.Props
import Verif.Split.Props
import Verif.Rank2.Height
import Verif.Rank2.Glob
import Verif.Rank2.Mordell
import Verif.Rank2.Props
import Verif.Rank2.GModel
import Verif.Rank2.GSieve
import Verif.Rank2.GProps
import Verif.Rank2.Mask
import Verif.Mw.Model
import Verif.Mw.Rat
import Verif.Mw.Det
import Verif.Mw.Gram
import Verif.Mw.Red
import Verif.Mw.Proc
import Verif.Mw.Props
import Verif.Mw.Tate
import Verif.Mw.Canon
import Verif.Lambda.Model
import Verif.Lambda.Props
import Verif.Lambda.Types
import Verif.Lambda.Height
import Verif.Lambda.Denom
import Verif.Lambda.Approx
import Verif.Lambda.Global
