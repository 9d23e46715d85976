import Verif.Marith.Model

/-!
# Model of the functions for the existence of 2-adic points: twoadic.cc

The versions for `long` and for `bigint` differ in the rounding of shifts and divisions; the argument `big` selects
the version.  Simplification: `long` is modelled by unbounded integers (no overflow).  The loops `while(1)` have a
bound for the number of iterations; the outcome `none` says that the function has not returned after this number.
-/

namespace Eclib.Twoadic

/-- `x >> n`: for `long` rounding down, for NTL's `ZZ` towards 0 -/
def shr (big : Bool) (x : ℤ) (n : ℕ) : ℤ := if big then x.tdiv (2 ^ n) else x.fdiv (2 ^ n)

/-- `x / n`: for `long` rounding towards 0, for NTL's `ZZ` down -/
def quo (big : Bool) (x n : ℤ) : ℤ := if big then x.fdiv n else x.tdiv n

/-- `x & (n-1)` for `n` a power of 2, or `posmod(x,n)` -/
abbrev low (x n : ℤ) : ℤ := x % n

/-- the loop of `case1` (twoadic.cc:155-171, 285-301): the polynomial is `(4a, 4b+2, 2c, d)` -/
def loop1 (big : Bool) : ℕ → ℤ → ℤ → ℤ → ℤ → Option Bool
  | 0, _, _, _, _ => none
  | n + 1, a, b, c, d =>
    let d8 := low d 8
    let d4 := low d8 4
    let c2 := low c 2
    if c2 ≠ 0 then some (d4 == 0 || d4 == 1)
    else if low d4 2 ≠ 0 then some (d8 == 1 || low (4 * a + 4 * b + 2 * c - 1) 8 == d8)
    else if d4 = 0 then loop1 big n (2 * a) b (shr big c 1) (shr big d 2)
    else loop1 big n (2 * a) (3 * a + b) (3 * a + 2 * b + quo big c 2 + 1) (a + b + quo big c 2 + quo big (d + 2) 4)

/-- `case1(a,b)` (twoadic.cc:142-172, 269-302) -/
def case1 (big : Bool) (fuel : ℕ) (a b : ℤ) : Option Bool :=
  let c := a + 3
  let d := 2 * a + b + 2
  let d8 := low d 8
  let c2 := low c 2
  let d4 := low d8 4
  if d4 = 2 ∨ d4 = 3 then some false
  else if d4 = 1 then some (c2 != 0 || d8 == 1)
  else if c2 ≠ 0 then some true
  else loop1 big fuel 1 1 (shr big c 1) (shr big d 2)

/-- the loop of `case2` (twoadic.cc:234-264, 318-348): the polynomial is `(4a, 3(4b+1), 2c, d)`; the test for `c` even and
`d4 = 2` is written differently in the two versions, `big` selecting the one -/
def loop2 (big : Bool) : ℕ → ℤ → ℤ → ℤ → ℤ → Option Bool
  | 0, _, _, _, _ => none
  | n + 1, a, b, c, d =>
    let d8 := low d 8
    let d4 := low d8 4
    if low c 2 ≠ 0 then
      if d4 = 0 then some true
      else if d4 = 2 then some false
      else if d4 = 1 then some (d8 == 1)
      else loop2 big n (2 * a) (b + a) (3 * a + 6 * b + quo big (c + 3) 2) (a + 3 * b + quo big (c + 1) 2 + quo big (d + 1) 4)
    else
      if d4 = 1 then some true
      else if d4 = 3 then some false
      else if d4 = 2 then
        some (if big then low (-4 * (a + b) - 2 * c - 2) 8 == d8 else low (d8 + 4 * (a + b) + 2 * c + 2) 8 == 0)
      else loop2 big n (2 * a) b (shr big c 1) (shr big d 2)

/-- `case2(a,b)` (twoadic.cc:220-265, 304-349) -/
def case2 (big : Bool) (fuel : ℕ) (a b : ℤ) : Option Bool :=
  let c := a + 1
  let d := a + b + 1
  let d8 := low d 8
  let c2 := low c 2
  let d4 := low d8 4
  if d4 = 2 ∨ d4 = 3 then some false
  else if d4 = 1 then some (c2 == 0 || d8 == 1)
  else if c2 = 1 then some true
  else loop2 big fuel 1 0 (shr big c 1) (shr big d 2)

/-- `val(bigint a)` (twoadic.h:45): 0x7FFF for 0, else the exponent of 2 -/
def val2 (a : ℤ) : ℕ := if a = 0 then 0x7FFF else Marith.val 2 a

/-- `newpoly` for `poly(2x+1)` (twoadic.cc:132-137), written out -/
def sub1 (p : ℤ × ℤ × ℤ × ℤ) : ℤ × ℤ × ℤ × ℤ :=
  (p.1 + p.2.1 + p.2.2.1 + p.2.2.2, 2 * (p.2.1 + 2 * p.2.2.1 + 3 * p.2.2.2), 4 * (p.2.2.1 + 3 * p.2.2.2), 8 * p.2.2.2)

/-- `newpoly` for `poly(2x)` (twoadic.cc:129) -/
def sub0 (p : ℤ × ℤ × ℤ × ℤ) : ℤ × ℤ × ℤ × ℤ := (p.1, 2 * p.2.1, 4 * p.2.2.1, 8 * p.2.2.2)

/-- `try1(bigint poly[4])` (twoadic.cc:91-140), the coefficients in the order of the exponents; `c` is the odd part of the
constant term modulo 8.  The outcome `none`: not returned after the number of recursive calls given. -/
def try1 : ℕ → ℤ × ℤ × ℤ × ℤ → Option Bool
  | 0, _ => none
  | n + 1, p =>
    let v := val2 p.1
    if p.1 = 0 ∨ v > 2 * val2 p.2.1 then some true
    else if v + val2 p.2.2.1 > 2 * val2 p.2.1 ∧ 2 * v + val2 p.2.2.2 > 3 * val2 p.2.1 then some true
    else
      let c := low (p.1.tdiv (2 ^ v)) 8
      if v % 2 = 0 ∧ c = 1 then some true
      else
        let sq := if v % 2 = 0 then (if low c 4 = 3 then 2 else 3) + v else v + 1
        if val2 p.2.1 < sq ∨ val2 p.2.2.1 < sq ∨ val2 p.2.2.2 < sq then
          (try1 n (sub0 p)).bind fun r => if r then some true else try1 n (sub1 p)
        else some false

end Eclib.Twoadic
