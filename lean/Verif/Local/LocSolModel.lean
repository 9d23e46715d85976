import Verif.Marith.Model

/-!
# Model of `mlocsol.cc`: local solubility of `y^2 = g(x,z)` for a quartic form `g`

The method of Birch and Swinnerton-Dyer, used for the primes below `CROSS_OVER_P`.  `bigint` is
NTL's `ZZ` (floor division).  The recursion of `zpsol` has no bound in the code, so the model
takes a bound on the depth; `none` is "the bound was reached" (or the Legendre symbol does not
return, which does not happen for a prime `p`).  The test of Siksek for `p ≥ 1000` is not modelled.
-/

namespace Eclib.LocSol

open Eclib.Marith (val posmod legendre)

/-- `while(v--) a/=p;` (mlocsol.cc:54) -/
def divN (p : Int) : Nat → Int → Int
  | 0, a => a
  | v + 1, a => divN p v (a.fdiv p)

/-- `psquare(aa,p)` (mlocsol.cc:49-57) -/
def psquare (aa p : Int) : Option Bool :=
  if aa = 0 then some true
  else
    let v := val p aa
    if v % 2 = 1 then some false
    else
      let a := divN p v aa
      if p = 2 then some (posmod a 8 = 1)
      else (legendre a p).map (fun l => decide (l = 1))

/-- `gx = (((a*x+b)*x+c)*x+d)*x+e` (mlocsol.cc:64, 85) -/
def gx (a b c d e x : Int) : Int := (((a * x + b) * x + c) * x + d) * x + e

/-- `gdashx = ((4*a*x+3*b)*x+2*c)*x+d` (mlocsol.cc:66, 87) -/
def gdashx (a b c d x : Int) : Int := ((4 * a * x + 3 * b) * x + 2 * c) * x + d

/-- `lemma6` after `psquare` (mlocsol.cc:66-78) with `gx`, `gdashx` not `0`, `0` -/
def lemma6Tail (p g gd : Int) (nu : Nat) : Int :=
  let lambda : Int := val p g
  if gd = 0 then (if lambda ≥ 2 * nu then 0 else -1)
  else
    let mu : Int := val p gd
    if lambda - mu ≥ nu ∧ (nu : Int) > mu then 1
    else if lambda ≥ 2 * nu ∧ mu ≥ nu then 0
    else -1

/-- `lemma6(a,b,c,d,e,p,nu,x)` (mlocsol.cc:60-79) -/
def lemma6 (a b c d e p : Int) (nu : Nat) (x : Int) : Option Int :=
  match psquare (gx a b c d e x) p with
  | none => none
  | some true => some 1
  | some false => some (lemma6Tail p (gx a b c d e x) (gdashx a b c d x) nu)

/-- `while (even(oddgx)) oddgx /= 2;` (mlocsol.cc:91) -/
def oddPart (x : Int) : Int :=
  if _h : x ≠ 0 ∧ x.fmod 2 = 0 then oddPart (x.fdiv 2) else x
termination_by x.natAbs
decreasing_by
  obtain ⟨k, rfl⟩ := Int.dvd_of_fmod_eq_zero _h.2
  rw [Int.mul_fdiv_cancel_left _ (by decide)]
  omega

/-- `lemma7` after `psquare` (mlocsol.cc:87-105) -/
def lemma7Tail (p g gd : Int) (nu : Nat) : Int :=
  let lambda : Int := val p g
  let oddgx := if g = 0 then 1 else oddPart g
  let odd4 := posmod oddgx 4 = 1
  if gd = 0 then
    if lambda ≥ 2 * nu then 0
    else if lambda = 2 * nu - 2 ∧ odd4 then 0
    else -1
  else
    let mu : Int := val p gd
    if lambda - mu ≥ nu ∧ (nu : Int) > mu then 1
    else if (nu : Int) > mu ∧ lambda = mu + nu - 1 ∧ lambda % 2 = 0 then 1
    else if (nu : Int) > mu ∧ lambda = mu + nu - 2 ∧ lambda % 2 = 0 ∧ odd4 then 1
    else if mu ≥ nu ∧ lambda ≥ 2 * nu then 0
    else if mu ≥ nu ∧ lambda = 2 * nu - 2 ∧ odd4 then 0
    else -1

/-- `lemma7(a,b,c,d,e,p,nu,x)` (mlocsol.cc:81-106) -/
def lemma7 (a b c d e p : Int) (nu : Nat) (x : Int) : Option Int :=
  match psquare (gx a b c d e x) p with
  | none => none
  | some true => some 1
  | some false => some (lemma7Tail p (gx a b c d e x) (gdashx a b c d x) nu)

/-- the test of one residue in the first loop (mlocsol.cc:126-127): for `p = 2` both `lemma7` and
`lemma6` are called -/
def tryRes (a b c d e p : Int) (nu : Nat) (x : Int) : Option Bool :=
  if p = 2 then
    match lemma7 a b c d e p (nu + 1) x with
    | none => none
    | some r =>
      if r = 1 then some true
      else (lemma6 a b c d e p (nu + 1) x).map (fun l => decide (l = 1))
  else (lemma6 a b c d e p (nu + 1) x).map (fun l => decide (l = 1))

/-- `for(i=0; i<p; ++i, x+=pnu) if (f(x)) return 1;` with `n` passes to go (mlocsol.cc:124-128,
131-134): the answer and the value of `x` after the loop -/
def search (f : Int → Option Bool) (pnu : Int) : Nat → Int → Option (Bool × Int)
  | 0, x => some (false, x)
  | n + 1, x =>
    match f x with
    | none => none
    | some true => some (true, x)
    | some false => search f pnu n (x + pnu)

/-- the first loop, only for `nu==0` (mlocsol.cc:122-129); `x` is not reset afterwards -/
def firstLoop (a b c d e p : Int) (nu : Nat) (x0 : Int) : Option (Bool × Int) :=
  if nu = 0 then search (tryRes a b c d e p nu) (p ^ nu) p.toNat x0 else some (false, x0)

/-- `zpsol(a,b,c,d,e,p,x0,nu)` (mlocsol.cc:108-136), to a given depth -/
def zpsol (a b c d e p : Int) : Nat → Int → Nat → Option Bool
  | 0, _, _ => none
  | fuel + 1, x0, nu =>
    match if p = 2 then lemma7 a b c d e p nu x0 else lemma6 a b c d e p nu x0 with
    | none => none
    | some result =>
      if result = 1 then some true
      else if result = -1 then some false
      else
        match firstLoop a b c d e p nu x0 with
        | none => none
        | some (true, _) => some true
        | some (false, x) =>
          (search (fun x => zpsol a b c d e p fuel x (nu + 1)) (p ^ nu) p.toNat x).map Prod.fst

/-- `qpsoluble(a,b,c,d,e,p)` (mlocsol.cc:147-153); `qpsoluble(g,p)` (138-145) is the same on the
coefficients of `g` -/
def qpsoluble (fuel : Nat) (a b c d e p : Int) : Option Bool :=
  match zpsol a b c d e p fuel 0 0 with
  | none => none
  | some true => some true
  | some false => zpsol e d c b a p fuel 0 1

/-- `qpsoluble(a,c,e,p)` (mlocsol.cc:155-160) -/
def qpsolubleAce (fuel : Nat) (a c e p : Int) : Option Bool := qpsoluble fuel a 0 c 0 e p

/-- `CROSS_OVER_P` (mlocsol.cc:215) -/
def crossOverP : Int := 1000

/-- `new_qpsoluble(a,b,c,d,e,p,verbose)` (mlocsol.cc:230-265): below the cross-over it is
`qpsoluble`; the other method is the argument `ss` -/
def newQpsoluble (ss : Int → Int → Int → Int → Int → Int → Option Bool) (fuel : Nat)
    (a b c d e p : Int) : Option Bool :=
  if p < crossOverP then qpsoluble fuel a b c d e p else ss a b c d e p

end Eclib.LocSol
