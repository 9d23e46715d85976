import Verif.Tate.AlgModel

/-!
# Model of the constructor `CurveRed(const Curvedata&)` (`curvered.cc:120-330`)
-/

namespace Eclib.Tate

open Eclib.Marith (div)
open Eclib.Curve (Cd c4c6ToAi minimiseC4C6)

/-- class `Curvedata` (eclib/curve.h:115-197) with the flags and the list of bad primes -/
structure Cdf where
  /-- coefficients and invariants -/
  cd : Cd
  /-- `minimal_flag` -/
  minimal : Bool
  /-- `discr_factored` -/
  factored : Bool
  /-- `the_bad_primes` -/
  bad : List Int
deriving DecidableEq, Repr

/-- `Curvedata::minimalize()` (curvedata.cc:210-246); `pdivs` stands for the function of that name -/
def Cdf.minimalize (pdivs : Int → List Int) (S : Cdf) : Cdf :=
  if S.minimal then S
  else if S.cd.isnull then { S with minimal := true }
  else
    let m := minimiseC4C6 pdivs S.cd.c4 S.cd.c6
    let u := m.2.2.2
    let c4 := if u > 1 then m.1 else S.cd.c4
    let c6 := if u > 1 then m.2.1 else S.cd.c6
    let discr := m.2.2.1
    let bad := if S.factored then (if u > 1 then S.bad.filter fun p => div p discr else S.bad)
      else pdivs discr
    let r := c4c6ToAi c4 c6
    ⟨⟨r.toCv, r.b2, r.b4, r.b6, r.b8, c4, c6, discr, S.cd.conncomp⟩, true, S.factored, bad⟩

/-- `factor_discr` (eclib/curve.h:133-134) -/
def Cdf.factor (pdivs : Int → List Int) (S : Cdf) : Cdf :=
  if S.factored then S else { S with bad := pdivs S.cd.discr, factored := true }

/-- `CurveRed(const Curvedata&)` (curvered.cc:120-330): the curve, `reduct_array` (in the order of the
list of bad primes) and the conductor `N` -/
def curveRedOf (L : Lib) (fuel : Nat) (pdivs : Int → List Int) (S : Cdf) :
    Option (Cd × List (Int × Red) × Int) :=
  let S := S.minimalize pdivs
  if S.cd.discr = 0 then some (S.cd, [], 0)
  else
    let S := S.factor pdivs
    (curveRed L fuel S.bad S.cd).map fun r => (S.cd, r)

end Eclib.Tate
