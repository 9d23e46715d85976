import Verif.Pmod.Model

/-!
# Model of libsrc/ffmod.cc: class `ffmodq`, the affine coordinate ring of an elliptic curve over a finite field

As in `Verif.Pmod.Model`, NTL's `ZZ_p` is an arbitrary field `F` with decidable equality.  NTL's polynomials (`FqPoly`, i.e.
`ZZ_pX`) are lists of coefficients, the constant term first; leading zeros may be present (NTL removes them), nothing here
depends on this.
-/

namespace Eclib.Ff

open Pmod (Pq)

variable {F : Type} [Field F] [DecidableEq F]

/-! ## polynomials -/

/-- sum of polynomials -/
def padd : List F → List F → List F
  | [], g => g
  | f, [] => f
  | a :: f, b :: g => (a + b) :: padd f g

/-- multiple of a polynomial -/
def psmul (c : F) (f : List F) : List F := f.map (c * ·)

/-- difference of polynomials -/
def psub (f g : List F) : List F := padd f (psmul (-1) g)

/-- product of polynomials -/
def pmul : List F → List F → List F
  | [], _ => []
  | a :: f, g => padd (psmul a g) (0 :: pmul f g)

/-- division with remainder by `X - c` -/
def synth (c : F) : List F → List F × F
  | [] => ([], 0)
  | a :: f => ((synth c f).2 :: (synth c f).1, a + c * (synth c f).2)

/-- `evaluate(const FqPoly&, const gf_element&)` (ffmod.cc:88-101): Horner's method from the leading coefficient -/
def peval (f : List F) (x : F) : F := f.foldr (fun a r => r * x + a) 0

/-! ## the coordinate ring -/

/-- An element `h1 + Y*h2` (ffmod.h:48-49) -/
structure FF (F : Type) where
  h1 : List F
  h2 : List F

/-- `ffmodq::f1`, `X³ + a2 X² + a4 X + a6` (ffmod.cc:44) -/
def f1 (E : WeierstrassCurve F) : List F := [E.a₆, E.a₄, E.a₂, 1]

/-- `ffmodq::f2`, `a1 X + a3` (ffmod.cc:45) -/
def f2 (E : WeierstrassCurve F) : List F := [E.a₃, E.a₁]

/-- `ffmodq::operator+` (ffmod.cc:53-56) -/
def add (a b : FF F) : FF F := ⟨padd a.h1 b.h1, padd a.h2 b.h2⟩

/-- `ffmodq::operator-` (ffmod.cc:58-61) -/
def sub (a b : FF F) : FF F := ⟨psub a.h1 b.h1, psub a.h2 b.h2⟩

/-- `ffmodq::operator*` (ffmod.cc:63-66) -/
def mul (E : WeierstrassCurve F) (a b : FF F) : FF F :=
  ⟨padd (pmul a.h1 b.h1) (pmul (pmul (f1 E) a.h2) b.h2),
   psub (padd (pmul a.h1 b.h2) (pmul a.h2 b.h1)) (pmul (pmul (f2 E) a.h2) b.h2)⟩

/-- `ffmodq::operator*(const FqPoly&)` (ffmod.cc:68-71) -/
def mulPoly (a : FF F) (h : List F) : FF F := ⟨pmul h a.h1, pmul h a.h2⟩

/-- `ffmodq::evaluate` (ffmod.cc:103-114); the evaluation at infinity is an error -/
def evaluate (h : FF F) : Pq F → Option F
  | .oo => none
  | .pt x y => some (peval h.h1 x + y * peval h.h2 x)

/-- `vertical` (ffmod.cc:117-127) -/
def vertical : Pq F → FF F
  | .oo => ⟨[1], []⟩
  | .pt x _ => ⟨[-x, 1], []⟩

/-- `ffmodq::operator/` (ffmod.cc:73-85) with divisor `vertical(P)`, which is the only use.  The quotients by `1` and by
`X - x` are computed directly. -/
def divVertical (a : FF F) : Pq F → FF F
  | .oo => a
  | .pt x _ => ⟨(synth x a.h1).1, (synth x a.h2).1⟩

/-- `tangent` (ffmod.cc:130-153) -/
def tangent (E : WeierstrassCurve F) : Pq F → FF F
  | .oo => ⟨[1], []⟩
  | .pt x y =>
    let dyf := y + y + E.a₁ * x + E.a₃
    if dyf = 0 then ⟨[-x, 1], []⟩
    else
      let dxf := E.a₁ * y - (3 * x * x + 2 * E.a₂ * x + E.a₄)
      let slope := -dxf / dyf
      ⟨[-y - slope * -x, -slope], [1]⟩

/-- `chord` (ffmod.cc:157-183) -/
def chord (E : WeierstrassCurve F) : Pq F → Pq F → FF F
  | .oo, Q => vertical Q
  | P, .oo => vertical P
  | .pt xP yP, .pt xQ yQ =>
    let ydiff := yP - yQ
    let xdiff := xP - xQ
    if xdiff = 0 then
      if ydiff = 0 then tangent E (.pt xP yP) else vertical (.pt xP yP)
    else
      let slope := ydiff / xdiff
      ⟨[-yP - slope * -xP, -slope], [1]⟩

/-- The loop of `weil_pol` (ffmod.cc:197-201), `n` steps from `h`, `kT` -/
def weilLoop (E : WeierstrassCurve F) (T : Pq F) : ℕ → FF F → Pq F → FF F
  | 0, h, _ => h
  | n + 1, h, kT => weilLoop E T n (divVertical (mul E h (chord E T kT)) kT) (Pq.add E kT T)

/-- `weil_pol` (ffmod.cc:185-223) -/
def weilPol (E : WeierstrassCurve F) (T : Pq F) (m : ℤ) : FF F :=
  if m = 2 then vertical T
  else if m = 3 then tangent E T
  else weilLoop E T (m - 1 - 2).toNat (tangent E T) (Pq.add E T T)

/-! ## evaluation without computing the polynomial -/

/-- The variables of `evaluate_weil_pol_0` -/
structure MSt (F : Type) where
  kT : Pq F
  a : F
  T2 : Pq F
  a2 : F

/-- The addition in `evaluate_weil_pol_0` (ffmod.cc:261-281) -/
def addStep (E : WeierstrassCurve F) (S : Pq F) (s : MSt F) : Option (MSt F) :=
  if s.kT = .oo then some { s with kT := s.T2, a := s.a2 }
  else do
    let l ← evaluate (chord E s.kT s.T2) S
    let a := s.a * s.a2 * l
    let kT := Pq.add E s.kT s.T2
    if kT = .oo then pure { s with kT := kT, a := a }
    else
      let v ← evaluate (vertical kT) S
      pure { s with kT := kT, a := a / v }

/-- The doubling in `evaluate_weil_pol_0` (ffmod.cc:284-297) -/
def dblStep (E : WeierstrassCurve F) (S : Pq F) (s : MSt F) : Option (MSt F) := do
  let a2 := s.a2 * s.a2
  let l ← evaluate (tangent E s.T2) S
  let a2 := a2 * l
  let T2 := Pq.mul E 2 s.T2
  if T2 = .oo then pure { s with T2 := T2, a2 := a2 }
  else
    let v ← evaluate (vertical T2) S
    pure { s with T2 := T2, a2 := a2 / v }

/-- The loop of `evaluate_weil_pol_0` (ffmod.cc:258-299) -/
def millerLoop (E : WeierstrassCurve F) (S : Pq F) (k : ℕ) (s : MSt F) : Option F :=
  if k = 0 then some s.a
  else do
    let s ← if k % 2 = 1 then addStep E S s else some s
    let k' := if k % 2 = 1 then k - 1 else k
    if k' = 0 then some s.a
    else
      let s ← dblStep E S s
      millerLoop E S (k' / 2) s
termination_by k
decreasing_by all_goals split_ifs <;> omega

/-- `evaluate_weil_pol_0` (ffmod.cc:238-302), for `m > 0`; `none` is the error in `evaluate` -/
def evalWeil0 (E : WeierstrassCurve F) (T : Pq F) (m : ℕ) (S : Pq F) : Option F :=
  if m = 2 then
    match S, T with
    | .pt xS _, .pt xT _ => some (xS - xT)
    | _, _ => none
  else millerLoop E S m ⟨.oo, 1, T, 1⟩

/-- `evaluate_weil_pol` (ffmod.cc:304-317); `R` is the random point, chosen again until `m*R` is not 0 -/
def evalWeil (E : WeierstrassCurve F) (T : Pq F) (m : ℕ) (S R : Pq F) : Option F :=
  if T = .oo ∨ S = .oo then some 1
  else if Pq.mul E m S ≠ .oo then evalWeil0 E T m S
  else do
    let n ← evalWeil0 E T m (Pq.add E R S)
    let d ← evalWeil0 E T m R
    pure (n / d)

end Eclib.Ff
