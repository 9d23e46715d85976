import Verif.Forms.Model

/-!
# Model of libsrc/minim.cc: minimisation of quartics at a prime
-/

namespace Eclib.Forms

open Marith (XGcd mod invmod div val)

/-- `root_p` (minim.cc:30-69) -/
def rootP (X : XGcd) (g : G) (p : Int) : Int :=
  if div p g.a && div p g.b then -1
  else if div p g.e && div p g.d then 0
  else if p = 2 then 1
  else if p = 3 then
    (if div p g.a then mod (-g.b * g.e) p else mod (-g.a * g.d) p)
  else
    let b2 := g.b * g.b
    let ac := g.a * g.c
    let pSem := mod (3 * b2 - 8 * ac) p
    if pSem = 0 then mod (-g.b * invmod X (4 * g.a) p) p
    else if div p g.a then mod (-g.c * invmod X (3 * g.b) p) p
    else
      let t := invmod X (4 * g.a * pSem) p
      let rSem := g.b * b2 + 8 * (g.a * g.a) * g.d - 4 * ac * g.b
      mod ((3 * rSem - g.b * pSem) * t) p

/-- `xshift` with a `scaled_unimod`, which is passed as a `unimod&` -/
def G.xshiftS (g : G) (m : SU) (t : Int) : G × SU :=
  ((g.xshift m.toU t).1, ⟨(g.xshift m.toU t).2, m.m00⟩)
/-- `zshift` with a `scaled_unimod` -/
def G.zshiftS (g : G) (m : SU) (t : Int) : G × SU :=
  ((g.zshift m.toU t).1, ⟨(g.zshift m.toU t).2, m.m00⟩)
/-- `m_invert` with a `scaled_unimod` (transform.cc:121-126) -/
def G.mInvertS (g : G) (m : SU) : G × SU :=
  ((g.mInvert m.toU).1, ⟨(g.mInvert m.toU).2, m.m00⟩)

/-- all coefficients divisible by `u` (minim.cc:88-92, 106-110) -/
def G.divAll (u : Int) (g : G) : Bool :=
  div u g.a && div u g.b && div u g.c && div u g.d && div u g.e

/-- The step moving the multiple root to 0 (minim.cc:118-143 with `g0 = g/p`, 181-206 with
`g0 = g`).  The consistency messages are not modelled. -/
def moveRoot (X : XGcd) (g0 g : G) (p : Int) (m : SU) : G × SU :=
  if div p g0.a && div p g0.b then g.mInvertS m
  else if !div p g0.e || !div p g0.d then g.xshiftS m (rootP X g0 p)
  else (g, m)

/-- minim.cc:168-173 and 277-282 -/
def rescale1 (g : G) (p : Int) (m : SU) : G × SU :=
  (⟨g.a, g.b.fdiv p, g.c.fdiv (p * p), g.d.fdiv (p * (p * p)), g.e.fdiv ((p * p) * (p * p))⟩,
   (m.xScale p).uScale (p * p))

/-- minim.cc:243-248 -/
def rescale2 (g : G) (p : Int) (m : SU) : G × SU :=
  (⟨g.a * (p * p), g.b, g.c.fdiv (p * p), g.d.fdiv ((p * p) * (p * p)),
    g.e.fdiv ((p * p) * (p * p) * (p * p))⟩,
   (m.xScale (p * p)).uScale (p * (p * p)))

/-- the case where `p` divides all coefficients (minim.cc:112-175).  `a0` in minim.cc:148 is the
quotient computed before the root was moved. -/
def minimAll (X : XGcd) (g : G) (p : Int) (m : SU) : G × SU × Bool :=
  let g0 := g.divBy p
  let s := moveRoot X g0 g p m
  let b0 := s.1.b.fdiv p
  let s := if !div (p * p) s.1.a && !div p b0 then
      s.1.zshiftS s.2 (mod (-g0.a * invmod X b0 p) p) else s
  if p = 2 && !div 16 s.1.e then (s.1, s.2, false)
  else
    let r := rescale1 s.1 p s.2
    (r.1, r.2, true)

/-- the shift `beta` of the triple root case (minim.cc:220-237) -/
def betaShift (X : XGcd) (g : G) (p : Int) : Int :=
  if p = 3 then
    let vpi := val 3 (12 * g.a * g.e - 3 * g.b * g.d + g.c * g.c)
    let temp := if vpi = 4 then (-g.e).fdiv 27 else (-g.c).fdiv 9
    if !div 3 temp then 3 * mod (temp * invmod X g.b 3) 3 else 0
  else
    let temp := (-g.c).fdiv p
    if !div p temp then p * mod (temp * invmod X (3 * g.b) p) p else 0

/-- the case where `p` does not divide all coefficients (minim.cc:177-284) -/
def minimNot (X : XGcd) (g : G) (p : Int) (m : SU) : G × SU × Bool :=
  let s := moveRoot X g g p m
  let s := if !div p s.1.a && !div p s.1.b then
      s.1.zshiftS s.2 (mod (-s.1.a * invmod X s.1.b p) p) else s
  if div p s.1.a then
    let s := s.1.xshiftS s.2 (betaShift X s.1 p)
    let r := rescale2 s.1 p s.2
    (r.1, r.2, true)
  else
    let s := if p = 3 && !div p (s.1.b.fdiv 3) then
        s.1.xshiftS s.2 (3 * mod (-(s.1.b.fdiv 3) * invmod X s.1.a p) p) else s
    if p = 2 && !div 16 s.1.e then (s.1, s.2, false)
    else
      let r := rescale1 s.1 p s.2
      (r.1, r.2, true)

/-- `minim_p` (minim.cc:71-285): the new quartic, the new matrix and the success flag -/
def minimP (X : XGcd) (g : G) (p : Int) (m : SU) : G × SU × Bool :=
  if g.divAll (p * p) then (g.divBy (p * p), m.uScale p, true)
  else if g.divAll p then minimAll X g p m
  else minimNot X g p m

/-- `is_nonmin` (minim.cc:287-298) -/
def isNonmin (smallp vpi vpj vpd : Int) (assumeLocsol : Bool) : Bool :=
  if !assumeLocsol then vpi > 7 && vpj > 11
  else if smallp = 3 then (vpi > 4 && vpj > 8) || (vpi = 4 && vpj = 6 && vpd > 14)
  else vpi > 3 && vpj > 5

/-- the variables of `minim_all` (minim.cc:300-303, 314-317) -/
structure MSt where
  g : G
  m : SU
  I : Int
  J : Int
  vpi : Int
  vpj : Int
  vpd : Int
deriving DecidableEq, Repr

/-- `j=n; while(j--) divide_exact(I,p,I);` (minim.cc:342-343) -/
def divTimes (p : Int) : Nat → Int → Int
  | 0, x => x
  | n + 1, x => divTimes p n (x.fdiv p)

/-- the state after a successful step (minim.cc:341-344) -/
def MSt.next (s : MSt) (p smallp : Int) (r : G × SU × Bool) : MSt :=
  ⟨r.1, r.2.1, divTimes p 4 s.I, divTimes p 6 s.J, s.vpi - 4, s.vpj - 6,
    if smallp = 3 then s.vpd - 12 else s.vpd⟩

/-- the loop `while(nonmin)` (minim.cc:336-348).  The first argument bounds the number of turns: each
turn subtracts 4 from `vpi`, and `is_nonmin` requires `vpi > 3`. -/
def minimLoop (X : XGcd) (p smallp : Int) (assumeLocsol : Bool) : Nat → MSt → MSt
  | 0, s => s
  | n + 1, s =>
    if isNonmin smallp s.vpi s.vpj s.vpd assumeLocsol then
      let r := minimP X s.g p s.m
      if r.2.2 then minimLoop X p smallp assumeLocsol n (s.next p smallp r)
      else { s with g := r.1, m := r.2.1 }
    else s

/-- the start of the body of `minim_all` for one prime (minim.cc:308-317) -/
def minimStart (p : Int) (g : G) (m : SU) (I J : Int) : MSt :=
  ⟨g, m, I, J, if I = 0 then 1000 else (val p I : Int), if J = 0 then 1000 else (val p J : Int),
    if p = 3 then (val p (4 * I * (I * I) - J * J) : Int) else 0⟩

/-- `smallp` (minim.cc:309-311) -/
def smallP (p : Int) : Int := if p = 2 then 2 else if p = 3 then 3 else 1

/-- `minim_all` (minim.cc:300-368): the quartic, the matrix, `I`, `J`, and the primes for which the
message about wrong invariants is printed (minim.cc:356-364).  The other output is not modelled. -/
def minimAllP (X : XGcd) (assumeLocsol : Bool) : List Int → G → SU → Int → Int →
    G × SU × Int × Int × List Int
  | [], g, m, I, J => (g, m, I, J, [])
  | p :: ps, g, m, I, J =>
    let s := minimStart p g m I J
    if isNonmin (smallP p) s.vpi s.vpj s.vpd assumeLocsol then
      let s := minimLoop X p (smallP p) assumeLocsol s.vpi.toNat s
      let r := minimAllP X assumeLocsol ps s.g s.m s.I s.J
      if s.I ≠ s.g.II ∨ s.J ≠ s.g.JJ then (r.1, r.2.1, r.2.2.1, r.2.2.2.1, p :: r.2.2.2.2) else r
    else minimAllP X assumeLocsol ps g m I J

end Eclib.Forms
