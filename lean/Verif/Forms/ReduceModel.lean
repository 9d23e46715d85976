import Verif.Forms.Model
import Mathlib.Data.Int.Cast.Defs
import Mathlib.Order.Basic

/-!
# Model of `one_step` and `reduce_quad` (libsrc/reduce.cc)

The type `K` stands for `bigfloat`; only the operations are used, nothing is assumed about them here, so `K` may be a
type of floating point numbers.  `Iround` and `is_approx_zero` are parameters.  `yz = sqrt(abs(dz))/2` is an argument.
The loops take fuel; `none` means that the fuel is used up.
-/

namespace Eclib.Forms.Red

variable {K : Type*} [Add K] [Sub K] [Mul K] [Div K] [Neg K] [IntCast K] [LT K] [DecidableLT K]

/-- the functions on `bigfloat` which are parameters -/
structure RLib (K : Type*) where
  /-- `Iround` (marith.cc) -/
  rnd : K → ℤ
  /-- `is_approx_zero` (interface.h:102-110, 171) -/
  azero : K → Bool

/-- the loop of `one_step` (reduce.cc:516-543): the state is `x`, `s` and the matrix `(a,b;c,d)`.  The value `ans`,
which no caller uses, is left out. -/
def oneLoop (R : RLib K) (x0 y0 s0 : K) : ℕ → K → K → U → Option U
  | 0, _, _, _ => none
  | n + 1, x, s, m =>
    let k := R.rnd x
    let x2 := (k : K) - x
    let newc := k * m.m21 - m.m11
    let newd := k * m.m22 - m.m12
    let s1 := x0 * (newc : K) + (newd : K)
    let s2 := y0 * (newc : K)
    let news := s1 * s1 + s2 * s2
    if s < news then some m
    else
      let m' : U := ⟨m.m21, m.m22, newc, newd⟩
      if news < s0 then some m'
      else if R.azero x2 then some m'
      else oneLoop R x0 y0 s0 n (((1 : ℤ) : K) / x2) news m'

/-- `one_step(x0,y0,h,a,b,c,d)` (reduce.cc:501-545) -/
def oneStep (R : RLib K) (fuel : ℕ) (x0 y0 h : K) : Option U :=
  oneLoop R x0 y0 (y0 / h) fuel x0 ((1 : ℤ) : K) U.one

/-- the shift by `s`: `m1.x_shift(s)`, `c+=xk*(xk+b)`, `b+=2*xk` (reduce.cc:307-310, 331-333) -/
def shift (b c : K) (m : U) (s : ℤ) : K × K × U :=
  (b + ((2 : ℤ) : K) * (s : K), c + (s : K) * ((s : K) + b), m.xShift s)

/-- the inversion `c=1/c; b*=(-c)`, `m1.invert()` (reduce.cc:325-326) -/
def inv (b c : K) (m : U) : K × K × U :=
  let c' := ((1 : ℤ) : K) / c
  (b * (-c'), c', m.invert)

/-- `while(!reduced)` (reduce.cc:312, 322-346), with the values of `b` and `c` at the end -/
def rqLoop (R : RLib K) : ℕ → K × K × U → Option (K × K × U)
  | 0, _ => none
  | n + 1, (b, c, m) =>
    if ((99999 : ℤ) : K) / ((100000 : ℤ) : K) < c then some (b, c, m)
    else
      let t := inv b c m
      let s := R.rnd (-t.1 / ((2 : ℤ) : K))
      rqLoop R n (shift t.1 t.2.1 t.2.2 s)

/-- the quadratic and the matrix after `one_step` (reduce.cc:284-291): `m` is the matrix `(ma,mb;mc,md)` -/
def afterOne (b c : K) (m : U) : K × K × U :=
  let xd := (m.m11 : K)
  let xb := -(m.m12 : K)
  let xc := -(m.m21 : K)
  let xa := (m.m22 : K)
  let a1 := xa * xa + (b * xa + c * xc) * xc
  let b1 := ((2 : ℤ) : K) * (xa * xb + c * xc * xd) + b * (xa * xd + xb * xc)
  let c1 := xb * xb + (b * xb + c * xd) * xd
  (b1 / a1, c1 / a1, ⟨m.m22, -m.m12, -m.m21, m.m11⟩)

/-- `reduce_quad_1` (reduce.cc:258-348), which `reduce_quad` calls (reduce.cc:250-253); the code returns the matrix,
the model also the final values of `b` and `c`.  The number `xz` in `s = Iround(xz)` is the value computed at the
beginning (it is computed again only inside `#ifdef DEBUG_REDUCE_QUAD`). -/
def reduceQuad (R : RLib K) (fuel : ℕ) (b c yz : K) : Option (K × K × U) :=
  let xz := -b / ((2 : ℤ) : K)
  match oneStep R fuel xz yz (((1 : ℤ) : K) / ((10 : ℤ) : K)) with
  | none => none
  | some m0 =>
    let t := afterOne b c m0
    rqLoop R fuel (shift t.1 t.2.1 t.2.2 (R.rnd xz))

end Eclib.Forms.Red
