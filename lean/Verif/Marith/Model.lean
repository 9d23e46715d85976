import Verif.Arith.Lemmas

/-!
# Model of libsrc/marith.cc: multiprecision arithmetic

`bigint` is NTL's `ZZ`, modelled by `Int`.  NTL's `/` and `%` (and `DivRem`) round towards minus
infinity, so they are `Int.fdiv` and `Int.fmod`.  Division by zero aborts the program in NTL.
The two NTL routines which are not elementary (`XGCD`, `SqrRootMod`) enter as structures carrying
their documented contract; theorems hold for every implementation meeting the contract.
-/

namespace Eclib.Marith

open Eclib.Arith (val2)

/-- NTL's `XGCD(d,s,t,a,b)`: `d = gcd(a,b) ≥ 0` and `a*s + b*t = d`.  Used by
`bezout(bigint,bigint,...)` (libsrc/marith.cc:42-43). -/
structure XGcd where
  run : Int → Int → Int × Int × Int
  gcd_eq : ∀ a b, (run a b).1 = (Int.gcd a b : Int)
  identity : ∀ a b, a * (run a b).2.1 + b * (run a b).2.2 = (run a b).1

/-- NTL's `SqrRootMod(x,a,p)`: for an odd prime `p` and a square `a` with `0 ≤ a < p`, returns a
square root of `a` modulo `p` in `[0,p)`. -/
structure SqrRootMod where
  run : Int → Int → Int
  spec : ∀ (a : Int) (p : ℕ), p.Prime → p ≠ 2 → 0 ≤ a → a < p → IsSquare (a : ZMod p) →
    (p : Int) ∣ run a p ^ 2 - a

/-- `bigint rounded_division(const bigint&, const bigint&)` (libsrc/marith.cc:50-56). -/
def roundedDivision (a b : Int) : Int :=
  let q := a.fdiv b
  let r := a.fmod b
  let r2 := 2 * r
  if r2 < -b then q - 1 else if r2 ≥ b then q + 1 else q

/-- `bigint mod(const bigint&, const bigint&)` (libsrc/marith.cc:833-841); `mod(bigint,long)`
(843-851) has the same text. -/
def mod (a b : Int) : Int :=
  let bb : Int := b.natAbs
  let c := a.fmod bb
  let c2 := 2 * c
  if c2 > bb then c - bb else if c2 ≤ -bb then c + bb else c

/-- `bigint posmod(const bigint&, const bigint&)` (libsrc/marith.cc:853-859); `posmod(bigint,long)`
(861-867) has the same text. -/
def posmod (a b : Int) : Int :=
  let bb : Int := b.natAbs
  let c := a.fmod bb
  if c < 0 then c + bb else c

/-- The loop `while(::divides(a,d,q,r)) {a=q; count++;}` of `divide_out` (libsrc/marith.cc:889).
The guard `a ≠ 0 ∧ 1 < |d|` is discharged by `divideOut`. -/
def divideOutLoop (a d : Int) (count : Nat) : Int × Nat :=
  if _h : (a ≠ 0 ∧ 1 < d.natAbs) ∧ a.fmod d = 0 then divideOutLoop (a.fdiv d) d (count + 1)
  else (a, count)
termination_by a.natAbs
decreasing_by
  obtain ⟨k, rfl⟩ := Int.dvd_of_fmod_eq_zero _h.2
  have hd : d ≠ 0 := by rintro rfl; simp at _h
  rw [Int.mul_fdiv_cancel_left _ hd, Int.natAbs_mul]
  have hk : 0 < k.natAbs := Int.natAbs_pos.mpr (by rintro rfl; simp at _h)
  nlinarith [_h.1.2]

/-- `long divide_out(bigint& a, const bigint& d)` (libsrc/marith.cc:883-891): returns the new `a`
and the count.  `none`: the C code does not return (`d = ±1` loops for ever, `d = 0` is a division
by zero), which cannot happen for `a = 0`. -/
def divideOut (a d : Int) : Option (Int × Nat) :=
  if a = 0 then some (0, 0)
  else if d.natAbs ≤ 1 then none
  else some (divideOutLoop a d 0)

/-- `long val(const bigint& factor, const bigint& number)` (libsrc/marith.cc:905-913). -/
def val (factor number : Int) : Nat :=
  if number = 0 then 99999
  else
    let f : Int := factor.natAbs
    if f < 2 then 99999 else (divideOutLoop number f 0).2

/-- `int div(const bigint& factor, const bigint& number)` (libsrc/marith.cc:925-928). -/
def div (factor number : Int) : Bool :=
  if factor = 0 then number = 0 else number.fmod factor = 0

/-- `bigint invmod(const bigint& a, const bigint& p)` (libsrc/marith.cc:949-958). -/
def invmod (X : XGcd) (a p : Int) : Int :=
  let r := X.run a p
  if r.1 ≠ 1 then 0 else r.2.1

/-- `bigint chrem(a1,a2,m1,m2)` (libsrc/marith.cc:753-773).  The flag is `false` when the code
prints "No solution in chrem" (and returns 0). -/
def chrem (X : XGcd) (a1 a2 m1 m2 : Int) : Int × Bool :=
  let b := X.run m1 m2
  let g := b.1
  let u := b.2.1
  let l := m1 * (m2.fdiv g)
  let q := (a2 - a1).fdiv g
  let r := (a2 - a1).fmod g
  if r = 0 then ((a1 + u * m1 * q).fmod l, true) else (0, false)

/-- `int chi2(const bigint&)`, `chi4`, `hilbert2` by the tables `table8`, `table4`, `table44`
(libsrc/marith.cc:976-1004). -/
def chi2 (a : Int) : Int := [0, 1, 0, -1, 0, -1, 0, 1].getD (posmod a 8).toNat 0

@[inherit_doc chi2]
def chi4 (a : Int) : Int := [0, 1, 0, -1].getD (posmod a 4).toNat 0

@[inherit_doc chi2]
def hilbert2 (a b : Int) : Int :=
  ([[0, 0, 0, 0], [0, 1, 0, 1], [0, 0, 0, 0], [0, 1, 0, -1]].getD (posmod a 4).toNat []).getD
    (posmod b 4).toNat 0

/-- `while (is_zero(aa%4)) {aa/=4;}` (libsrc/marith.cc:1018). -/
def strip4 (aa : Int) : Int :=
  if _h : aa ≠ 0 ∧ aa.fmod 4 = 0 then strip4 (aa.fdiv 4) else aa
termination_by aa.natAbs
decreasing_by
  obtain ⟨k, rfl⟩ := Int.dvd_of_fmod_eq_zero _h.2
  rw [Int.mul_fdiv_cancel_left _ (by decide)]
  omega

/-- The body of the loop of `leg(bigint,bigint)` after `aa = aa % bb` (libsrc/marith.cc:1017-1020). -/
def legBody (aa bb ans : Int) : Int × Int :=
  let r1 := if aa < 0 then (-aa, ans * chi4 bb) else (aa, ans)
  let a4 := strip4 r1.1
  let r2 := if a4.fmod 2 = 0 then (a4.fdiv 2, r1.2 * chi2 bb) else (a4, r1.2)
  (r2.1, r2.2 * hilbert2 r2.1 bb)

/-- The loop of `leg(bigint,bigint)` (libsrc/marith.cc:1015-1022), with a bound on the number of
passes (`bb` strictly decreases, see `leg`).  `none`: the code does not terminate. -/
def legLoop : Nat → Int → Int → Int → Option Int
  | 0, _, bb, ans => if bb > 1 then none else some ans
  | fuel + 1, aa, bb, ans =>
    if bb > 1 then
      let a1 := aa.fmod bb
      if a1 = 0 then none
      else
        let r := legBody a1 bb ans
        legLoop fuel bb r.1 r.2
    else some ans

/-- `static int leg(const bigint&, const bigint&)` (libsrc/marith.cc:1007-1025). -/
def leg (a b : Int) : Option Int := legLoop b.toNat a b 1

/-- `int legendre(const bigint& a, const bigint& b)` (libsrc/marith.cc:1045-1048). -/
def legendre (a b : Int) : Option Int :=
  if Int.gcd a b = 1 ∧ b.fmod 2 ≠ 0 then leg a b else some 0

/-- `labs(posmod(x,8)-4) == 1` (libsrc/marith.cc:1076,1086). -/
def bit8 (x : Int) : Bool := (posmod x 8 - 4).natAbs == 1

/-- The loop of `kronecker(bigint,bigint)` (libsrc/marith.cc:1083-1089).
`divide_out(x1,2)` is written with `val2`. -/
def kronLoop (x1 y : Nat) (s : Int) : Int :=
  if _h : x1 ≠ 0 then
    let r := val2 x1
    let x1' := x1 / 2 ^ r
    let s := if r % 2 = 1 ∧ bit8 y then -s else s
    let s := if posmod y 4 = 3 ∧ posmod x1' 4 = 3 then -s else s
    kronLoop (y % x1') x1' s
  else if y = 1 then s else 0
termination_by x1
decreasing_by
  have h1 := Arith.val2_mul x1 _h
  have hpos : 0 < x1 / 2 ^ val2 x1 := by
    rcases Nat.eq_zero_or_pos (x1 / 2 ^ val2 x1) with h | h
    · rw [h] at h1; omega
    · exact h
  exact (Nat.mod_lt _ hpos).trans_le (Nat.div_le_self _ _)

/-- `int kronecker(const bigint& x, const bigint& y)` (libsrc/marith.cc:1059-1091). -/
def kronecker (x y : Int) : Int :=
  if y = 0 then (if x.natAbs = 1 then 1 else 0)
  else
    let s : Int := if y < 0 ∧ x < 0 then -1 else 1
    let r := val2 y.natAbs
    let y1 := y.natAbs / 2 ^ r
    if r ≠ 0 ∧ x % 2 = 0 then 0
    else
      let s := if r ≠ 0 ∧ r % 2 = 1 ∧ bit8 x then -s else s
      kronLoop (posmod x y1).toNat y1 s

/-- `int kronecker(const bigint& d, long n)` (libsrc/marith.cc:1093-1096): reduces `d` modulo `n`
and calls the `long` version. -/
def kroneckerBigLong (d n : Int) : Int := Arith.kronecker (mod d n) n

/-- The Newton loop of `sqrtnr` (libsrc/marith.cc:138-143). -/
def newton (n root : Nat) : Nat :=
  let y := (n / root + root) / 2
  if _h : y < root then newton n y else root
termination_by root

/-- `int sqrtnr(bigint& root, const bigint& n)` for `n > 0` (libsrc/marith.cc:131-145):
`lg(n)` is the number of bits minus one. -/
def sqrtnr (n : Nat) : Bool × Nat :=
  let l := 1 + Nat.log2 n / 2
  let root := newton n (2 ^ l)
  (root * root == n, root)

/-- `static int carresmod64[]` (libsrc/marith.cc:97-101). -/
def carresmod64 : List Nat := [
    1,1,0,0,1,0,0,0,0,1, 0,0,0,0,0,0,1,1,0,0,
    0,0,0,0,0,1,0,0,0,0, 0,0,0,1,0,0,1,0,0,0,
    0,1,0,0,0,0,0,0,0,1, 0,0,0,0,0,0,0,1,0,0,
    0,0,0,0]

/-- `static int carresmod63[]` (libsrc/marith.cc:102-106). -/
def carresmod63 : List Nat := [
    1,1,0,0,1,0,0,1,0,1, 0,0,0,0,0,0,1,0,1,0,
    0,0,1,0,0,1,0,0,1,0, 0,0,0,0,0,0,1,1,0,0,
    0,0,0,1,0,0,1,0,0,1, 0,0,0,0,0,0,0,0,1,0,
    0,0,0]

/-- `static int carresmod65[]` (libsrc/marith.cc:107-111). -/
def carresmod65 : List Nat := [
    1,1,0,0,1,0,0,0,0,1, 1,0,0,0,1,0,1,0,0,0,
    0,0,0,0,0,1,1,0,0,1, 1,0,0,0,0,1,1,0,0,1,
    1,0,0,0,0,0,0,0,0,1, 0,1,0,0,0,1,1,0,0,0,
    0,1,0,0,1]

/-- `static int carresmod11[]` (libsrc/marith.cc:112). -/
def carresmod11 : List Nat := [1,1,0,1,1,1,0,0,0,1,0]

/-- `static int carresmod17[]` (libsrc/marith.cc:113). -/
def carresmod17 : List Nat := [1,1,1,0,1,0,0,0,1,1,0,0,0,1,0,1,1]

/-- `static int carresmod19[]` (libsrc/marith.cc:114). -/
def carresmod19 : List Nat := [1,1,0,0,1,1,1,1,0,1,0,1,0,0,0,0,1,1,0]

/-- `while(even(n)) {n>>=1; twopow++;}` (libsrc/marith.cc:157), for `n > 0`. -/
def stripTwos (n twopow : Nat) : Nat × Nat :=
  if _h : n ≠ 0 ∧ n % 2 = 0 then stripTwos (n / 2) (twopow + 1) else (n, twopow)
termination_by n
decreasing_by omega

/-- `int isqrt(const bigint& in, bigint& root)` (libsrc/marith.cc:149-173): the flag returned and
the value left in `root`. -/
def isqrt (inp : Int) : Bool × Nat :=
  if inp < 0 then (false, 0)
  else if inp = 0 then (true, 0)
  else
    let s := stripTwos inp.toNat 0
    let n := s.1
    if s.2 % 2 = 1 then (false, 0)
    else
      let twopow := s.2 / 2
      let m := n % 931170240
      if carresmod64.getD (m % 64) 0 = 0 then (false, 0)
      else if carresmod63.getD (m % 63) 0 = 0 then (false, 0)
      else if carresmod65.getD (m % 65) 0 = 0 then (false, 0)
      else if carresmod11.getD (m % 11) 0 = 0 then (false, 0)
      else if carresmod17.getD (m % 17) 0 = 0 then (false, 0)
      else if carresmod19.getD (m % 19) 0 = 0 then (false, 0)
      else
        let r := sqrtnr n
        if r.1 then (true, r.2 * 2 ^ twopow) else (false, r.2)

/-- The loop of `sqrt_mod_2_power` (libsrc/marith.cc:188-192), `n = e - k` passes left. -/
def sqrt2Loop (a : Int) : Nat → Int → Int → Int → Int → Int
  | 0, x, _, _, _ => x
  | n + 1, x, q1, q, q2 =>
    let x := if !div q2 (x * x - a) then x + q1 else x
    sqrt2Loop a n x q q2 (q2 * 2)

/-- `int sqrt_mod_2_power(bigint& x, const bigint& a, int e)` (libsrc/marith.cc:175-199);
`none` for return value 0. -/
def sqrtMod2Power (a : Int) (e : Nat) : Option Int :=
  if e = 0 then some 0
  else
    let a8 := posmod a 8
    if a8 % 2 = 0 then none
    else if e = 1 then some 1
    else if e = 2 then (if a8 % 4 = 1 then some 1 else none)
    else if a8 ≠ 1 then none
    else if e = 3 then some 1
    else some (sqrt2Loop a (e - 3) 1 4 8 16)

/-- `sqrt_mod_p` (libsrc/eclib/marith.h, after `inline long jacobi`): NTL's `SqrRootMod`, then the
smaller of `x` and `p-x`. -/
def sqrtModP (S : SqrRootMod) (a p : Int) : Int :=
  let x := S.run a p
  if x > p - x then p - x else x

/-- The loop of `sqrt_mod_p_power` (libsrc/marith.cc:215-220), `n = e - k` passes left. -/
def sqrtPLoop (a p s : Int) : Nat → Int → Int → Int
  | 0, x, _ => x
  | n + 1, x, q =>
    let q := q * p
    let x := x - (s * (x * x - a)).fmod q
    sqrtPLoop a p s n (x.fmod q) q

/-- `int sqrt_mod_p_power(bigint& x, const bigint& a, const bigint& p, int e)`
(libsrc/marith.cc:201-227); `none` for return value 0. -/
def sqrtModPPower (X : XGcd) (S : SqrRootMod) (a p : Int) (e : Nat) : Option Int :=
  if p = 2 then sqrtMod2Power a e
  else if e = 0 then some 0
  else
    let a1 := a.fmod p
    if a1 = 0 then none
    else if legendre a1 p = some (-1) then none
    else
      let a1 := if a1 < 0 then a1 + p else a1
      let x := sqrtModP S a1 p
      if e = 1 then some x
      else
        let s := invmod X (2 * x) p
        some (sqrtPLoop a p s (e - 1) x p)

/-- The loop of `sqrt_mod_m` over the primes (libsrc/marith.cc:255-268); state `(x, mm)`. -/
def sqrtMLoop (X : XGcd) (S : SqrRootMod) (a m front : Int) : List Int → Int → Int → Option Int
  | [], x, _ => some x
  | p :: ps, x, mm =>
    let e := val p m
    if e = 0 then sqrtMLoop X S a m front ps x mm
    else
      match (if p = 2 then sqrtMod2Power a e else sqrtModPPower X S a p e) with
      | none => none
      | some xp =>
        let q := p ^ e
        let x := if p = front then xp else (chrem X x xp mm q).1
        sqrtMLoop X S a m front ps x (mm * q)

/-- `int sqrt_mod_m(bigint& x, const bigint& a, const bigint& m, const vector<bigint>& mpdivs)`
(libsrc/marith.cc:246-276); `none` for return value 0. -/
def sqrtModM (X : XGcd) (S : SqrRootMod) (a m : Int) (mpdivs : List Int) : Option Int :=
  if m = 1 then some 0
  else if a = 0 then some 0
  else if a = 1 then some 1
  else sqrtMLoop X S a m (mpdivs.headD 0) mpdivs 0 1

/-- The loop of `modsqrt` (libsrc/marith.cc:284-306); state `(x, m)`. -/
def modsqrtLoop (X : XGcd) (S : SqrRootMod) (a : Int) : List Int → Int → Int → Option Int
  | [], x, _ => some x
  | p :: ps, x, m =>
    let xmodp : Option Int :=
      if p = 2 then some (if a % 2 = 1 then 1 else 0)
      else
        let amodp := a.fmod p
        if amodp = 0 then some 0
        else if legendre amodp p = some (-1) then none
        else some (sqrtModP S (if amodp < 0 then amodp + p else amodp) p)
    match xmodp with
    | none => none
    | some xp =>
      let b := X.run m p
      let x := x * b.2.2 * p + xp * b.2.1 * m
      modsqrtLoop X S a ps (mod x (m * p)) (m * p)

/-- `int modsqrt(const bigint& a, const vector<bigint>& bplist, bigint& x)`
(libsrc/marith.cc:278-308). -/
def modsqrt (X : XGcd) (S : SqrRootMod) (a : Int) (bplist : List Int) : Option Int :=
  modsqrtLoop X S a bplist 0 1

/-- The loop of `sqfdecomp` (libsrc/marith.cc:697-704): state `(a1, a2, aplist)`. -/
def sqfLoop (a : Int) : List Int → Int × Int × List Int → Int × Int × List Int
  | [], s => s
  | p :: ps, (a1, a2, l) =>
    let e := val p a
    if e = 0 then sqfLoop a ps (a1, a2, l)
    else
      let s : Int × List Int := if e % 2 = 1 then (a1 * p, l ++ [p]) else (a1, l)
      sqfLoop a ps (s.1, a2 * p ^ (e / 2), s.2)

/-- `void sqfdecomp(const bigint& a, vector<bigint>& plist, bigint& a1, bigint& a2)`
(libsrc/marith.cc:689-707): returns `(a1, a2, plist)`.  The inner loop `for(j=0;j<e;j++) a2*=p`
is written as a power. -/
def sqfdecomp (a : Int) (plist : List Int) : Int × Int × List Int :=
  let s := sqfLoop a plist (1, 1, [])
  (if a < 0 then -s.1 else s.1, s.2.1, s.2.2)

/-- Variables of `rusin_lem3`. -/
structure Lem3 where
  m1 : Int
  m2 : Int
  m3 : Int
  c1 : Int
  c2 : Int
  check : Nat
  deriving DecidableEq, Repr

/-- The three guarded steps in the body of the loop of `rusin_lem3` (libsrc/marith.cc:723-738);
`phase` says which one is next. -/
def Lem3.step (s : Lem3) : Fin 3 → Lem3
  | 0 =>
    let d : Int := Int.gcd s.m1 s.m2
    if d > 1 then { s with check := 3, m1 := s.m1.fdiv d, m2 := s.m2.fdiv d, m3 := s.m3 * d }
    else { s with check := s.check - 1 }
  | 1 =>
    let d : Int := Int.gcd s.m1 s.m3
    if d > 1 then
      { s with check := 3, m1 := s.m1.fdiv d, m2 := s.m2 * d, m3 := s.m3.fdiv d, c1 := s.c1 * d }
    else { s with check := s.check - 1 }
  | 2 =>
    let d : Int := Int.gcd s.m2 s.m3
    if d > 1 then
      { s with check := 3, m1 := s.m1 * d, m2 := s.m2.fdiv d, m3 := s.m3.fdiv d, c2 := s.c2 * d }
    else { s with check := s.check - 1 }

/-- The quantity which the comment in the source (libsrc/marith.cc:709-712) says decreases. -/
def Lem3.size (s : Lem3) : Nat := (s.m1 * s.m2 * s.m3).natAbs

theorem Lem3.size_aux {x y z d : Int} (hd : 1 < d) (hx : d ∣ x) (hy : d ∣ y)
    (h : x * y * z ≠ 0) : (x.fdiv d * y.fdiv d * (z * d)).natAbs < (x * y * z).natAbs := by
  obtain ⟨a, rfl⟩ := hx
  obtain ⟨b, rfl⟩ := hy
  have hd0 : d ≠ 0 := by omega
  rw [Int.mul_fdiv_cancel_left _ hd0, Int.mul_fdiv_cancel_left _ hd0]
  have e : d * a * (d * b) * z = d * (a * b * (z * d)) := by ring
  rw [e, Int.natAbs_mul d]
  have h1 : 0 < (a * b * (z * d)).natAbs := by
    refine Int.natAbs_pos.mpr fun h0 => h ?_
    rw [e, h0, mul_zero]
  have h2 : 1 < d.natAbs := by omega
  nlinarith

theorem Lem3.step_size (s : Lem3) (ph : Fin 3) (h : s.size ≠ 0) (hc : 0 < s.check) :
    (s.step ph).size < s.size ∨ ((s.step ph).size = s.size ∧ (s.step ph).check < s.check) := by
  have h' : s.m1 * s.m2 * s.m3 ≠ 0 := fun h0 => h (by rw [Lem3.size, h0]; rfl)
  match ph with
  | 0 =>
    simp only [Lem3.step]
    split_ifs with hd
    · left
      exact Lem3.size_aux hd (Int.gcd_dvd_left ..) (Int.gcd_dvd_right ..) h'
    · right; exact ⟨rfl, by simp only; omega⟩
  | 1 =>
    simp only [Lem3.step]
    split_ifs with hd
    · left
      have e : s.m1 * s.m2 * s.m3 = s.m1 * s.m3 * s.m2 := by ring
      have := Lem3.size_aux (z := s.m2) hd (Int.gcd_dvd_left s.m1 s.m3)
        (Int.gcd_dvd_right s.m1 s.m3) (by rwa [← e])
      simp only [Lem3.size]
      rw [e]
      refine lt_of_le_of_lt (le_of_eq ?_) this
      congr 1; ring
    · right; exact ⟨rfl, by simp only; omega⟩
  | 2 =>
    simp only [Lem3.step]
    split_ifs with hd
    · left
      have e : s.m1 * s.m2 * s.m3 = s.m2 * s.m3 * s.m1 := by ring
      have := Lem3.size_aux (z := s.m1) hd (Int.gcd_dvd_left s.m2 s.m3)
        (Int.gcd_dvd_right s.m2 s.m3) (by rwa [← e])
      simp only [Lem3.size]
      rw [e]
      refine lt_of_le_of_lt (le_of_eq ?_) this
      congr 1; ring
    · right; exact ⟨rfl, by simp only; omega⟩

/-- The loop `while(check) {...}` of `rusin_lem3` (libsrc/marith.cc:720-739).  Since each of the
three steps is executed only if `check` is non-zero, and they are executed cyclically, the loop is
the iteration of single steps. The guard `size ≠ 0` holds because `a, b ≠ 0`. -/
def Lem3.run (s : Lem3) (ph : Fin 3) : Lem3 :=
  if _h : s.size ≠ 0 ∧ 0 < s.check then (s.step ph).run (ph + 1) else s
termination_by (s.size, s.check)
decreasing_by
  rcases Lem3.step_size s ph _h.1 _h.2 with h | ⟨h, h'⟩
  · exact Prod.Lex.left _ _ h
  · rw [h]; exact Prod.Lex.right _ h'

/-- `void rusin_lem3(a,b,m1,m2,m3,c1,c2)` (libsrc/marith.cc:714-751). -/
def rusinLem3 (a b : Int) : Lem3 :=
  if a = 0 ∨ b = 0 then ⟨a, b, 1, 1, 1, 3⟩ else Lem3.run ⟨a, b, 1, 1, 1, 3⟩ 0

/-- Variables of `gauss_reduce`. -/
structure GState where
  a : Int
  b : Int
  c : Int
  d : Int
  P : Int
  Q : Int
  R : Int
  deriving DecidableEq, Repr

/-- Values of the variables of `gauss_reduce` at the start (libsrc/arith.cc:381-385,
libsrc/marith.cc:1108-1110). -/
def GState.init (a b c d : Int) : GState :=
  ⟨a, b, c, d, a * a + b * b, a * c + b * d, c * c + d * d⟩

/-- The shift part of the loop body (libsrc/arith.cc:392-402, libsrc/marith.cc:1116-1124). -/
def GState.shift (s : GState) (t : Int) : GState :=
  if t ≠ 0 then
    { s with
      c := s.c - t * s.a
      d := s.d - t * s.b
      Q := s.Q - t * s.P
      R := (s.c - t * s.a) * (s.c - t * s.a) + (s.d - t * s.b) * (s.d - t * s.b) }
  else s

/-- The inversion part of the loop body.  The `long` version ends with `Q=-Q`
(libsrc/arith.cc:403-412), the `bigint` version does not (libsrc/marith.cc:1125-1132): the flag
`negQ` is `true` for the former. -/
def GState.invert (negQ : Bool) (s : GState) : GState :=
  ⟨s.c, s.d, -s.a, -s.b, s.R, if negQ then -s.Q else s.Q, s.P⟩

theorem roundedDivision_sub (a b : Int) (hb : 0 < b) :
    Arith.roundedDivision (a - Arith.roundedDivision a b * b) b = 0 := by
  have key : ∀ x : Int, -b ≤ 2 * (x - Arith.roundedDivision x b * b) ∧
      2 * (x - Arith.roundedDivision x b * b) < b := by
    intro x
    unfold Arith.roundedDivision
    have h := Int.tmod_add_mul_tdiv x b
    have habs : (x.tmod b).natAbs < b.natAbs := by
      rw [Int.natAbs_tmod]; exact Nat.mod_lt _ (by omega)
    simp only
    have hc := mul_comm b (x.tdiv b)
    split_ifs with h1 h2
    · have e : (x.tdiv b - 1) * b = x.tdiv b * b - b := by ring
      rw [e]; constructor <;> omega
    · have e : (x.tdiv b + 1) * b = x.tdiv b * b + b := by ring
      rw [e]; constructor <;> omega
    · constructor <;> omega
  have h1 := key a
  have h2 := key (a - Arith.roundedDivision a b * b)
  set r := a - Arith.roundedDivision a b * b
  by_contra hne
  rcases lt_or_gt_of_ne hne with h | h
  · nlinarith
  · nlinarith

/-- The loop of `gauss_reduce` (libsrc/arith.cc:386-413, libsrc/marith.cc:1112-1133).  `none`: a
division by `P = 0`, which happens only if the two vectors are dependent. The two overloads of
`rounded_division` agree for positive divisors (`Props.C04_rounded_division_big`). -/
def GState.loop (negQ : Bool) (s : GState) : Option GState :=
  if _hP : 0 < s.P then
    let t := Arith.roundedDivision s.Q s.P
    let s1 := s.shift t
    if _hR : s1.R < s1.P then GState.loop negQ (s1.invert negQ)
    else if _ht : t = 0 then some s1
    else GState.loop negQ s1
  else none
termination_by (s.P.toNat, if Arith.roundedDivision s.Q s.P = 0 then 0 else 1)
decreasing_by
  · apply Prod.Lex.left
    have e : (s.shift (Arith.roundedDivision s.Q s.P)).P = s.P := by
      unfold GState.shift; split_ifs <;> rfl
    simp only [s1, t, e] at _hR
    simp only [GState.invert]
    omega
  · have e : (s.shift (Arith.roundedDivision s.Q s.P)).P = s.P := by
      unfold GState.shift; split_ifs <;> rfl
    have e2 : (s.shift (Arith.roundedDivision s.Q s.P)).Q =
        s.Q - Arith.roundedDivision s.Q s.P * s.P := by
      unfold GState.shift; split_ifs with h <;> simp_all
    simp only [t] at _ht
    simp only [e, e2, roundedDivision_sub _ _ _hP, if_true, if_neg _ht]
    exact Prod.Lex.right _ (by omega)

/-- `gauss_reduce`, both overloads. -/
def gaussReduce (negQ : Bool) (a b c d : Int) : Option GState :=
  (GState.init a b c d).loop negQ

/-- `int modrat(long n, long m, long& a, long& b)` (libsrc/arith.cc:432-436, 476-490): `(a,b)` and
the success flag.  Simplification: the test `abs(a) <= lim` with `float lim = sqrt(float(m)/2.0)`
is the exact `2*a^2 ≤ m`. -/
def modratLong (n m : Int) : Option (Int × Int × Bool) :=
  (gaussReduce true (Arith.mod n m) 1 m 0).map fun s =>
    (s.a, s.b, decide (2 * (s.a * s.a) ≤ m) && decide (2 * (s.b * s.b) ≤ m))

/-- `int modrat(const bigint& n, const bigint& m, bigint& a, bigint& b)`
(libsrc/marith.cc:1137-1145): here `lim = sqrt(m>>1)`, integer square root. -/
def modratBig (n m : Int) : Option (Int × Int × Bool) :=
  (gaussReduce false (mod n m) 1 m 0).map fun s =>
    (s.a, s.b, decide (s.a.natAbs ≤ Nat.sqrt (m / 2).toNat) &&
      decide (s.b.natAbs ≤ Nat.sqrt (m / 2).toNat))

end Eclib.Marith
