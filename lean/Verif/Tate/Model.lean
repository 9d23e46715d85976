import Verif.Marith.Model

/-!
# Model of the reduction data of `CurveRed` (`curvered.cc`, `curve.h`)

`map<bigint,Reduction_type>` is an association list with distinct keys.  The fields are `Int`.
-/

namespace Eclib.Tate

/-- `Reduction_type` (curve.h:242-254); the root number is left out -/
structure Red where
  ordDisc : Int
  ordN : Int
  ordJ : Int
  code : Int
  cp : Int
  deriving Repr, DecidableEq

/-- the parts of `CurveRed` used here (curve.h:259-263; `conncomp` is a field of `Curvedata`) -/
structure CurveRed where
  conncomp : Int
  reduct : List (Int × Red)

/-- `reduct_array.find(p)` -/
def CurveRed.find (c : CurveRed) (p : Int) : Option Red := c.reduct.lookup p

/-- `getc_p` (curvered.cc:406-410): the GNU form `x ?: y` gives `1` (the truth value of the test)
for a prime that is not in the map -/
def CurveRed.cp (c : CurveRed) (p : Int) : Int :=
  match c.find p with
  | none => 1
  | some r => r.cp

/-- `prodcp` (curvered.cc:420-426) with `all_cp` (412-418) -/
def CurveRed.prodcp (c : CurveRed) : Int := (c.reduct.map fun e => e.2.cp).foldl (· * ·) 1

/-- `local_Tamagawa_number` (curvered.cc:429-432) -/
def CurveRed.localTamagawa (c : CurveRed) (p : Int) : Int := if p = 0 then c.conncomp else c.cp p

/-- `global_Tamagawa_number` (curvered.cc:435-438) -/
def CurveRed.globalTamagawa (c : CurveRed) (realToo : Bool) : Int :=
  c.prodcp * (if realToo then c.conncomp else 1)

/-- `local_Tamagawa_exponent` (curvered.cc:334-348) -/
def CurveRed.localExponent (c : CurveRed) (p : Int) : Int :=
  if p = 0 then c.conncomp
  else
    match c.find p with
    | none => 1
    | some info => if info.cp ≠ 4 then info.cp else if info.code.tmod 20 = 1 then 2 else 4

/-- `ep` in `global_Tamagawa_exponent` (curvered.cc:366) -/
def ep (info : Red) : Int := if info.code.tmod 20 = 1 then 2 else info.cp

/-- `lcm` of bigints (marith.h:51-52) -/
def lcmZ (a b : Int) : Int := if a = 0 ∧ b = 0 then 0 else a * (b.fdiv (Int.gcd a b))

/-- `global_Tamagawa_exponent` (curvered.cc:356-370) -/
def CurveRed.globalExponent (c : CurveRed) (realToo : Bool) : Int :=
  c.reduct.foldl (fun ans e => lcmZ ans (ep e.2))
    (if realToo && c.conncomp == 2 then 2 else 1)

/-- `PariKodairaCode` (curvered.cc:907-922) -/
def pariCode (code : Int) : Int :=
  if code = 0 then 1
  else if code = 1 then -1
  else if code.tmod 10 = 0 then code.tdiv 10 + 4
  else if code.tmod 10 = 1 then (1 - code).tdiv 10 - 4
  else if code > 4 then code - 9
  else code

end Eclib.Tate
