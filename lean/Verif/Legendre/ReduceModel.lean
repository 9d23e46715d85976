import Verif.Legendre.Model
import Verif.Forms.Model

/-!
# Model of the reduction of solutions: legendre.cc (legendre_param, new_legendre_reduce, legendre_reduce), conic.cc

Default preprocessor symbols.  `verb` and the output are not modelled.  The outcome `none` stands for a division by 0
and for the cases in which the code writes a message beginning with "Problem".
-/

namespace Eclib.Legendre

open Marith (XGcd)
open Forms (Q U)

/-- `cancel1(x,y,z)` (conic.cc:455-465); the division by 0 for `x = y = z = 0` gives 0 here -/
def cancel1 (x y z : ℤ) : ℤ × ℤ × ℤ :=
  let g := gcd x y
  if g ≠ 1 then
    let g' := gcd g z
    if g' ≠ 1 then (x.fdiv g', y.fdiv g', z.fdiv g') else (x, y, z)
  else (x, y, z)

/-- `cancel(x,y,z)` (conic.cc:467-478) -/
def cancel (x y z : ℤ) : ℤ × ℤ × ℤ :=
  let r := cancel1 x y z
  if r.2.2 > 0 then r
  else if r.2.2 < 0 then (-r.1, -r.2.1, -r.2.2)
  else if r.2.1 > 0 then r
  else if r.2.1 < 0 then (-r.1, -r.2.1, r.2.2)
  else if r.1 < 0 then (-r.1, r.2.1, r.2.2)
  else r

/-- The choice of `zz` in `conic_mordell_reduce` (conic.cc:907-931); `v > 0`.  `roundover` is `nearest` -/
def mordellZ (a b c0 xx yy u v : ℤ) : ℤ :=
  if c0 % 2 = 1 then
    if (a * xx + b * yy) % 2 = 0 then 2 * nearest u (2 * v)
    else
      let zz := nearest u v
      if zz % 2 = 0 then (if v * zz > u then zz - 1 else zz + 1) else zz
  else nearest u v

/-- The new solution (conic.cc:935-943), before the multiplication by `gxy` and the cancellation -/
def mordellNew (a b c0 d x00 y00 z0 xx yy zz : ℤ) : Option (ℤ × ℤ × ℤ) :=
  let u := a * xx ^ 2 + b * yy ^ 2 + c0 * zz ^ 2
  let v := 2 * (a * x00 * xx + b * y00 * yy + c0 * z0 * zz)
  let d := if c0 % 2 = 1 then d * 2 else d
  let nx := x00 * u - xx * v
  let ny := y00 * u - yy * v
  let nz := z0 * u - zz * v
  if d ≠ 0 ∧ nx.fmod d = 0 ∧ ny.fmod d = 0 ∧ nz.fmod d = 0 then some (nx.fdiv d, ny.fdiv d, nz.fdiv d) else none

/-- The body of the loop of `conic_mordell_reduce` (conic.cc:888-945) -/
def mordellStep (X : XGcd) (a b c x0 y0 z0 : ℤ) : Option (ℤ × ℤ × ℤ) :=
  let gxy := gcd x0 y0
  let x00 := if gxy > 1 then x0.fdiv gxy else x0
  let y00 := if gxy > 1 then y0.fdiv gxy else y0
  let c0 := if gxy > 1 then c.fdiv (gxy ^ 2) else c
  let d := if c0 % 2 = 1 then c0 else c0.fdiv 2
  let r := X.run y00 (-x00)
  let xx := r.2.1 * d
  let yy := r.2.2 * d
  let u := a * x00 * xx + b * y00 * yy
  let v := -c0 * z0
  let u' := if v < 0 then -u else u
  let v' := if v < 0 then -v else v
  if v' = 0 then none
  else
    (mordellNew a b c0 d x00 y00 z0 xx yy (mordellZ a b c0 xx yy u' v')).map fun s =>
      if gxy > 1 then cancel1 (s.1 * gxy) (s.2.1 * gxy) s.2.2 else cancel1 s.1 s.2.1 s.2.2

/-- The loop of `conic_mordell_reduce` (conic.cc:884-965); `none` also for "new solution is NOT smaller" -/
def mordellLoop (X : XGcd) (a b c : ℤ) : ℕ → ℤ → ℤ → ℤ → Option (ℤ × ℤ × ℤ)
  | 0, _, _, _ => none
  | k + 1, x0, y0, z0 =>
    if z0 ^ 2 ≤ a * b then some (x0, y0, z0)
    else
      match mordellStep X a b c x0 y0 z0 with
      | none => none
      | some s => if |s.2.2| ≥ |z0| then none else mordellLoop X a b c k s.1 s.2.1 s.2.2

/-- `conic_mordell_reduce(a,b,c,x0,y0,z0,verb)` (conic.cc:853-974) -/
def mordellReduce (X : XGcd) (a b c x0 y0 z0 : ℤ) : Option (ℤ × ℤ × ℤ) :=
  mordellLoop X a b c (z0.natAbs + 1) x0 y0 z0

/-- `legendre_reduce(a,b,c,x0,y0,z0,verb)` (legendre.cc:647-695) -/
def legendreReduce (X : XGcd) (a b c x0 y0 z0 : ℤ) : Option (ℤ × ℤ × ℤ) :=
  if a > 0 then
    if b > 0 then mordellReduce X a b c x0 y0 z0
    else if c > 0 then (mordellReduce X a c b x0 z0 y0).map fun s => (s.1, s.2.2, s.2.1)
    else (mordellReduce X (-c) (-b) (-a) z0 y0 x0).map fun s => (s.2.2, s.2.1, s.1)
  else if b > 0 then
    if c > 0 then (mordellReduce X b c a y0 z0 x0).map fun s => (s.2.2, s.1, s.2.1)
    else (mordellReduce X (-a) (-c) (-b) x0 z0 y0).map fun s => (s.1, s.2.2, s.2.1)
  else mordellReduce X (-a) (-b) (-c) x0 y0 z0

/-- `x_shift(e,m)` and the division of the coefficients by `z1` and `z12` (legendre.cc:866-868) -/
def paramShift (e z1 : ℤ) (q : Q) : Q :=
  let s := (q.xShift U.one e).1
  ⟨s.a, s.b.fdiv z1, s.c.fdiv (z1 ^ 2)⟩

/-- `q.reduce(m)`; the fuel is sufficient for definite forms -/
def reduceQ (q : Q) : Option (Q × U) := q.reduce (q.a.natAbs + 1) U.one

/-- `legendre_param(a,b,c,x0,y0,z0,qx,qy,qz)` (legendre.cc:840-905) -/
def legendreParam (X : XGcd) (a b c x0 y0 z0 : ℤ) : Option (Q × Q × Q) :=
  let g := gcd y0 z0
  let a1 := if g > 1 then a.fdiv (g ^ 2) else a
  let y1 := if g > 1 then y0.fdiv g else y0
  let z1 := if g > 1 then z0.fdiv g else z0
  if z1 = 0 then none
  else
    let z12 := z1 ^ 2
    let e := ((X.run y1 z12).2.1 * x0).fmod z12
    let qx := paramShift e z1 ⟨a1 * x0, 2 * b * y1, -b * x0⟩
    let qy := paramShift e z1 ⟨-a1 * y1, 2 * a1 * x0, b * y1⟩
    let qz := paramShift e z1 ⟨a1 * z1, 0, b * z1⟩
    let r : Option (Q × Q × Q) :=
      if a * b > 0 then (reduceQ qz).map fun s => (qx.transform s.2, qy.transform s.2, s.1)
      else if a * c > 0 then (reduceQ qy).map fun s => (qx.transform s.2, s.1, qz.transform s.2)
      else (reduceQ qx).map fun s => (s.1, qy.transform s.2, qz.transform s.2)
    if g > 1 then
      r.map fun s => (s.1, ⟨g * s.2.1.a, g * s.2.1.b, g * s.2.1.c⟩, ⟨g * s.2.2.a, g * s.2.2.b, g * s.2.2.c⟩)
    else r

/-- The test of Holzer's condition in `new_legendre_reduce` (legendre.cc:921-943, 966-970) -/
def holzerTest (a b c x y z : ℤ) : Bool :=
  if (a < 0 ∧ b > 0 ∧ c > 0) ∨ (a > 0 ∧ b < 0 ∧ c < 0) then x ^ 2 ≤ b * c
  else if (b < 0 ∧ a > 0 ∧ c > 0) ∨ (b > 0 ∧ a < 0 ∧ c < 0) then y ^ 2 ≤ a * c
  else z ^ 2 ≤ a * b

/-- `new_legendre_reduce(a,b,c,x0,y0,z0,verb)` (legendre.cc:906-989) -/
def newReduce (X : XGcd) (a b c x0 y0 z0 : ℤ) : Option (ℤ × ℤ × ℤ) :=
  if holzerTest a b c x0 y0 z0 then some (x0, y0, z0)
  else
    match legendreParam X a b c x0 y0 z0 with
    | none => none
    | some q =>
      let s := cancel |q.1.a| |q.2.1.a| |q.2.2.a|
      if holzerTest a b c s.1 s.2.1 s.2.2 then some s
      else legendreReduce X a b c s.1 s.2.1 s.2.2

end Eclib.Legendre
