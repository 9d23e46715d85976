import Verif.Marith.Model

/-!
# Model of the solver of Legendre's equation `ax²+by²+cz²=0`: legendre.cc

NTL's `ZZ` is unbounded, so `Int` is exact; `/` and `%` of NTL are the floor operations `Int.fdiv`, `Int.fmod`.
`gcd` of NTL is non-negative.  The preprocessor symbols are those of the default build (`USE_SMALL_P` defined;
`CHECK_*`, `DEBUG_*`, `REDUCE_INTERMEDIATES`, `MORDELL_REDUCE` not defined).  Loops have fuel which is shown to be
sufficient; for the mutually recursive `lem4_1` and `legendre_solve_cert_1` the fuel is an argument and running out of
it is the outcome `none`.  Messages on `cout` are not modelled.
-/

namespace Eclib.Legendre

open Marith (XGcd SqrRootMod invmod chrem isqrt)

/-- `nearest(c,a,b)` (eclib/marith.h:67-68) -/
def nearest (a b : ℤ) : ℤ :=
  let a0 := a.fmod b
  let c := (a - a0).fdiv b
  if 2 * a0 > b then c + 1 else c

/-- `gcd` of NTL -/
abbrev gcd (a b : ℤ) : ℤ := (Int.gcd a b : ℤ)

/-- The loop of `minv` (legendre.cc:88-104); `[x,y]` has norm `n1`, `[xx,yy]` has norm `n2`. -/
def minvLoop (c1 c2 : ℤ) : ℕ → ℤ → ℤ → ℤ → ℤ → ℤ → ℤ → ℤ × ℤ
  | 0, x, y, _, _, _, _ => (x, y)
  | k + 1, x, y, xx, yy, n1, n2 =>
    if n2 ≥ n1 then (x, y)
    else
      -- after the swaps the short vector is `[xx,yy]`
      let dot := c1 * xx * x + c2 * yy * y
      let alpha := nearest dot n2
      if alpha = 0 then minvLoop c1 c2 k xx yy x y n2 n1
      else
        let x' := x - alpha * xx
        let y' := y - alpha * yy
        minvLoop c1 c2 k xx yy x' y' n2 (c1 * x' ^ 2 + c2 * y' ^ 2)

/-- `minv(a1,a2,b1,b2,c1,c2,xmin,ymin)` (legendre.cc:70-112) -/
def minv (a1 a2 b1 b2 c1 c2 : ℤ) : ℤ × ℤ :=
  let n1 := c1 * a1 ^ 2 + c2 * a2 ^ 2
  let dot := c1 * a1 * b1 + c2 * a2 * b2
  let alpha := nearest dot n1
  let xx := if alpha = 0 then b1 else b1 - alpha * a1
  let yy := if alpha = 0 then b2 else b2 - alpha * a2
  minvLoop c1 c2 (n1.toNat + 1) a1 a2 xx yy n1 (c1 * xx ^ 2 + c2 * yy ^ 2)

/-- `GIreduce(a,b,c,d,e,f)` (legendre.cc:115-124) -/
def giReduce (a b c d : ℤ) : ℤ × ℤ :=
  let n := c ^ 2 + d ^ 2
  let q1 := nearest (a * c + b * d) n
  let q2 := nearest (b * c - a * d) n
  (a - c * q1 + d * q2, b - c * q2 - d * q1)

/-- The loop of `GIgcd` (legendre.cc:133-138) -/
def giLoop : ℕ → ℤ → ℤ → ℤ → ℤ → ℤ × ℤ
  | 0, _, _, x2, y2 => (x2, y2)
  | k + 1, x1, y1, x2, y2 =>
    let r := giReduce x1 y1 x2 y2
    if r.1 = 0 ∧ r.2 = 0 then (x2, y2) else giLoop k x2 y2 r.1 r.2

/-- The choice of a Gaussian integer among the associates (legendre.cc:139-142) -/
def giNorm (e f : ℤ) : ℤ × ℤ :=
  if e ≤ 0 ∧ f > 0 then (f, -e)
  else if e < 0 ∧ f ≤ 0 then (-e, -f)
  else if e ≥ 0 ∧ f < 0 then (-f, e)
  else (e, f)

/-- `GIgcd(a,b,c,d,e,f)` (legendre.cc:127-143) -/
def giGcd (a b c d : ℤ) : ℤ × ℤ :=
  let r := if c = 0 ∧ d = 0 then (a, b) else giLoop ((c ^ 2 + d ^ 2).toNat + 1) a b c d
  giNorm r.1 r.2

/-- `lem1plus(a,b,c,n,p,q,x,y,z)` (legendre.cc:147-163); `a`, `n`, `p` are not used -/
def lem1plus (b c q : ℤ) : ℤ × ℤ × ℤ :=
  let r := giGcd q 1 c 0
  (r.1, if b = -1 then -r.2 else r.2, 1)

/-- `lem1minus(a,b,c,n,p,q,x,y,z)` (legendre.cc:169-209); `n`, `p` are not used.  In the case of the message
"Error in lem1minus" `x` keeps the value which it had before the call, 0 in the callers. -/
def lem1minus (a b c q : ℤ) : ℤ × ℤ × ℤ :=
  if q = 1 then (1, a, 0)
  else
    let absc : ℤ := |c|
    if q = -1 ∨ q = absc - 1 then (1, -a, 0)
    else
      let cplus := gcd (q - 1) c
      let cminus := gcd (q + 1) c
      let d := cplus * cminus
      let z := d.fdiv absc
      let x := if d = absc then (cminus - cplus).fdiv 2
        else if d = 2 * absc then cminus.fdiv 2 - cplus else 0
      let y := cminus - x
      let s : ℤ × ℤ := if b * c > 0 then (y, x) else (x, y)
      (if a < 0 then -s.1 else s.1, s.2, z)

/-- `lem1(a,b,c,n,p,q,x,y,z)` (legendre.cc:211-254); `none`: the message "lem1 wrongly called" -/
def lem1 (a b c n p q : ℤ) : Option (ℤ × ℤ × ℤ) :=
  -- a solution `(y,z,x)` of the equation for `(b,c,a)` is returned as `(x,y,z)`
  if b * c = -1 then let r := lem1minus b c a n; some (r.2.2, r.1, r.2.1)
  else if b * c = 1 then let r := lem1plus c a n; some (r.2.2, r.1, r.2.1)
  else if a * b = -1 then some (lem1minus a b c q)
  else if a * b = 1 then some (lem1plus b c q)
  else if c * a = -1 then let r := lem1minus c a b p; some (r.2.1, r.2.2, r.1)
  else if c * a = 1 then let r := lem1plus a b p; some (r.2.1, r.2.2, r.1)
  else none

/-- The variables of `lem3` -/
structure Lem3 where
  m1 : ℤ
  m2 : ℤ
  m3 : ℤ
  c1 : ℤ
  c2 : ℤ
deriving DecidableEq, Repr

/-- `while(divides(m,psq,q,r)) {m=q; c*=p;}` (legendre.cc:1378-1379), for `m ≠ 0`.  State `(m, c)`. -/
def strip (p : ℤ) : ℕ → ℤ → ℤ → ℤ × ℤ
  | 0, m, c => (m, c)
  | k + 1, m, c => if m.fmod (p ^ 2) = 0 then strip p k (m.fdiv (p ^ 2)) (c * p) else (m, c)

/-- `smallp` (legendre.cc:1365); `smallpsq` (1366) is the list of their squares -/
def smallp : List ℤ := [2, 3, 5, 7, 11, 13, 17, 19]

/-- The loop over the small primes (legendre.cc:1374-1381) -/
def stripAll : List ℤ → Lem3 → Lem3
  | [], s => s
  | p :: ps, s =>
    let r1 := strip p s.m1.natAbs s.m1 s.c1
    let r2 := strip p s.m2.natAbs s.m2 s.c2
    stripAll ps { s with m1 := r1.1, c1 := r1.2, m2 := r2.1, c2 := r2.2 }

/-- The main loop of `lem3` (legendre.cc:1382-1413); the flags say which pairs are to be examined -/
def lem3Loop : ℕ → Lem3 → Bool → Bool → Bool → Lem3
  | 0, s, _, _, _ => s
  | k + 1, s, f12, f13, f23 =>
    if !(f12 || f13 || f23) then s
    else
      -- `m1`, `m2`
      let d12 := gcd s.m1 s.m2
      let t12 := f12 && decide (d12 > 1)
      let s1 := if t12 then { s with m1 := s.m1.fdiv d12, m2 := s.m2.fdiv d12, m3 := s.m3 * d12 } else s
      let f13' := f13 || t12
      -- `m1`, `m3`
      let d13 := gcd s1.m1 s1.m3
      let t13 := f13' && decide (d13 > 1)
      let s2 := if t13 then
        { s1 with m1 := s1.m1.fdiv d13, m2 := s1.m2 * d13, m3 := s1.m3.fdiv d13, c1 := s1.c1 * d13 } else s1
      let f23' := f23 || t12 || t13
      -- `m2`, `m3`
      let d23 := gcd s2.m2 s2.m3
      let t23 := f23' && decide (d23 > 1)
      let s3 := if t23 then
        { s2 with m1 := s2.m1 * d23, m2 := s2.m2.fdiv d23, m3 := s2.m3.fdiv d23, c2 := s2.c2 * d23 } else s2
      -- the flags at the end of the body
      lem3Loop k s3 (t13 || t23) t23 false

/-- `lem3(a,b,m1,m2,m3,c1,c2)` (legendre.cc:1368-1425) -/
def lem3 (a b : ℤ) : Lem3 :=
  if a = 0 ∨ b = 0 then ⟨a, b, 1, 1, 1⟩
  else lem3Loop ((a * b).natAbs + 1) (stripAll smallp ⟨a, b, 1, 1, 1⟩) true true true

/-- The outcome of `legendre_solve_cert_1` and `lem4_1`: the code 0 with a solution; a code `i` in 1, 2, 3 with a
number `u` whose square is said to divide the `i`-th coefficient; the code -1 -/
inductive Out where
  | sol (x y z : ℤ)
  | sq (i : ℕ) (u : ℤ)
  | bad
deriving DecidableEq, Repr

/-- The values of the variables of `lem4_1` which do not change in its last loop -/
structure Ctx where
  a : ℤ
  b : ℤ
  c : ℤ
  k1 : ℤ
  k2 : ℤ
  k3 : ℤ
  w1 : ℤ
  w2 : ℤ
  bb : ℤ
  cc : ℤ
  d1 : ℤ
  d2 : ℤ
  m1 : ℤ
  m2 : ℤ
  n3 : ℤ
deriving DecidableEq, Repr

/-- The value of `u` after `e=gcd(d,w); u=abs(d/e)` -/
def cofactor (d w : ℤ) : ℤ := |d.fdiv (gcd d w)|

/-- The new certificate `k1dash`, `k2dash`, `k3dash` (legendre.cc:1193-1200) -/
def newCert (X : XGcd) (v : Ctx) (aa n2 w1s w2s gs : ℤ) : ℤ × ℤ × ℤ :=
  let inv_w2_mod_n2 := invmod X w2s n2
  let inv_w1_mod_d2 := invmod X w1s v.d2
  let inv_w2_mod_d1 := invmod X w2s v.d1
  let aaa := invmod X (v.a * gs) (v.b * v.c)
  ((chrem X (-v.b * w1s * inv_w2_mod_n2) (-v.k1) n2 v.n3).1,
   (chrem X (v.k3 * w1s * aaa) (v.k2 * w2s * aaa) v.m1 v.m2).1,
   (chrem X (v.k2 * aa * gs * inv_w1_mod_d2) (-v.k3 * aa * gs * inv_w2_mod_d1) v.d2 v.d1).1)

/-- Mapping the solution back (legendre.cc:1254-1305) -/
def mapBack (v : Ctx) (aa n2 gamma x1 y1 z1 : ℤ) : ℤ × ℤ × ℤ :=
  let x := -gamma * aa * x1
  let y := v.m1 * (v.w2.fdiv v.d2) * y1 + v.w1 * z1
  let z := v.m2 * (v.w1.fdiv v.d1) * y1 - v.w2 * z1
  if |n2| > 1 then (x.fdiv n2, y.fdiv n2, z.fdiv n2) else (x, y, z)

/-- The loop `do ... while(res)` of `lem4_1` (legendre.cc:1145-1238) and the mapping of the solution;
`rec` is the recursive call of `legendre_solve_cert_1`. -/
def lem4Loop (X : XGcd) (rec : ℤ → ℤ → ℤ → ℤ → ℤ → ℤ → Option Out) (v : Ctx) :
    ℕ → ℤ → ℤ → ℤ → Option Out
  | 0, _, _, _ => none
  | k + 1, aa, n2, gamma =>
    let g := gcd v.w1 gamma
    let w1s := if g > 1 then v.w1.fdiv g else v.w1
    let w2s := if g > 1 then v.w2.fdiv g else v.w2
    let gs := if g > 1 then gamma.fdiv g else gamma
    if g > 1 ∧ cofactor v.d1 w1s > 1 then some (.sq 3 (cofactor v.d1 w1s))
    else if g > 1 ∧ cofactor v.d2 w2s > 1 then some (.sq 2 (cofactor v.d2 w2s))
    else
      let kk := newCert X v aa n2 w1s w2s gs
      match rec aa v.bb v.cc kk.1 kk.2.1 kk.2.2 with
      | none => none
      | some (.sol x1 y1 z1) =>
        let r := mapBack v aa n2 gamma x1 y1 z1
        some (.sol r.1 r.2.1 r.2.2)
      | some (.sq i u) =>
        if i = 1 then
          if gcd u v.n3 > 1 then some (.sq 1 (gcd u v.n3))
          else lem4Loop X rec v k (aa.fdiv (u ^ 2)) (n2.fdiv (u ^ 2)) (gamma * u)
        else if gcd u v.b > 1 then some (.sq 2 (gcd u v.b))
        else if gcd u v.c > 1 then some (.sq 3 (gcd u v.c))
        else some .bad
      | some .bad => some .bad

/-- The part of `lem4_1` after the last checks for `gamma` (legendre.cc:1109-1143) -/
def lem4c (X : XGcd) (rec : ℤ → ℤ → ℤ → ℤ → ℤ → ℤ → Option Out) (fuel : ℕ)
    (a b c k1 k2 k3 w1 w2 aa bb cc gamma d1 d2 : ℤ) : Option Out :=
  let m1 := c.fdiv d1
  let m2 := b.fdiv d2
  let l := lem3 a aa
  if l.c1 > 1 then some (.sq 1 l.c1)
  else
    let aa' := if l.c2 > 1 then aa.fdiv (l.c2 ^ 2) else aa
    let gamma' := if l.c2 > 1 then gamma * l.c2 else gamma
    lem4Loop X rec ⟨a, b, c, k1, k2, k3, w1, w2, bb, cc, d1, d2, m1, m2, l.m3⟩ fuel aa' l.m2 gamma'

/-- The part of `lem4_1` after the checks for `alpha` (legendre.cc:1064-1107) -/
def lem4b (X : XGcd) (rec : ℤ → ℤ → ℤ → ℤ → ℤ → ℤ → Option Out) (fuel : ℕ)
    (a b c k1 k2 k3 w1 w2 aa bb cc gamma : ℤ) : Option Out :=
  let d1 := gcd cc c
  if cofactor d1 w1 > 1 then some (.sq 3 (cofactor d1 w1))
  else
    let d2 := cc.fdiv d1
    if cofactor d2 w2 > 1 then some (.sq 2 (cofactor d2 w2))
    else
      let d := gcd b gamma
      if cofactor d w2 > 1 then some (.sq 2 (cofactor d w2))
      else if d > 1 then some (.sq 2 d)
      else
        let d := gcd c gamma
        if cofactor d w1 > 1 then some (.sq 3 (cofactor d w1))
        else if d > 1 then some (.sq 3 d)
        else lem4c X rec fuel a b c k1 k2 k3 w1 w2 aa bb cc gamma d1 d2

/-- The part of `lem4_1` after the call of `minv` (legendre.cc:1036-1062) -/
def lem4a (X : XGcd) (rec : ℤ → ℤ → ℤ → ℤ → ℤ → ℤ → Option Out) (fuel : ℕ)
    (a b c k1 k2 k3 w1 w2 : ℤ) : Option Out :=
  let t := (b * w1 ^ 2 + c * w2 ^ 2).fdiv a
  let bc := b * c
  let l := lem3 t bc
  let aa := if l.m3 > 0 then -l.m1 else l.m1
  let bb := if l.m3 > 0 then -l.m2 else l.m2
  let cc := if l.m3 > 0 then -l.m3 else l.m3
  let gamma := l.c1
  let alpha := l.c2
  if gcd alpha b > 1 then some (.sq 2 (gcd alpha b))
  else if gcd alpha c > 1 then some (.sq 3 (gcd alpha c))
  else lem4b X rec fuel a b c k1 k2 k3 w1 w2 aa bb cc gamma

/-- `lem4_1(a,b,c,k1,k2,k3,x,y,z,u)` (legendre.cc:1003-1340) -/
def lem4 (X : XGcd) (rec : ℤ → ℤ → ℤ → ℤ → ℤ → ℤ → Option Out) (fuel : ℕ)
    (a b c k1 k2 k3 : ℤ) : Option Out :=
  if |b| = 1 then
    -- the message "lem1 wrongly called" leaves `x`, `y`, `z` at 0
    let r := (lem1 a b c k1 k2 k3).getD (0, 0, 0)
    some (.sol r.1 r.2.1 r.2.2)
  else
    let w := (k1 * invmod X c a).fmod a
    let ww := minv 1 w 0 a |b| |c|
    lem4a X rec fuel a b c k1 k2 k3 ww.1 ww.2

/-- A permutation of the result of `lem4_1`: the solution by `f`, the code by the row of `permtable` -/
def permOut (f : ℤ → ℤ → ℤ → ℤ × ℤ × ℤ) (tab : List ℕ) : Out → Out
  | .sol x y z => let r := f x y z; .sol r.1 r.2.1 r.2.2
  | .sq i u => .sq (tab.getD i 0) u
  | .bad => .bad

/-- `legendre_solve_cert_1(a,b,c,n,p,q,x,y,z,u)` (legendre.cc:502-566), with `permtable` (495) -/
def solveCert (X : XGcd) : ℕ → ℤ → ℤ → ℤ → ℤ → ℤ → ℤ → Option Out
  | 0, _, _, _, _, _, _ => none
  | k + 1, a, b, c, n, p, q =>
    let sb := isqrt |b|
    let sc := isqrt |c|
    let sa := isqrt |a|
    if sb.1 = true ∧ sb.2 > 1 then some (.sq 2 sb.2)
    else if sc.1 = true ∧ sc.2 > 1 then some (.sq 3 sc.2)
    else if sa.1 = true ∧ sa.2 > 1 then some (.sq 1 sa.2)
    else if |a| > |b| then
      if |c| > |a| then
        (lem4 X (solveCert X k) k c a b q n p).map (permOut (fun z x y => (x, y, z)) [0, 3, 1, 2])
      else if |b| > |c| then
        (lem4 X (solveCert X k) k a b c n p q).map (permOut (fun x y z => (x, y, z)) [0, 1, 2, 3])
      else
        (lem4 X (solveCert X k) k a c b (-n) (-q) (-p)).map (permOut (fun x z y => (x, y, z)) [0, 1, 3, 2])
    else if |a| > |c| then
      (lem4 X (solveCert X k) k b a c (-p) (-n) (-q)).map (permOut (fun y x z => (x, y, z)) [0, 2, 1, 3])
    else if |c| > |b| then
      (lem4 X (solveCert X k) k c b a (-q) (-p) (-n)).map (permOut (fun z y x => (x, y, z)) [0, 3, 2, 1])
    else
      (lem4 X (solveCert X k) k b c a p q n).map (permOut (fun y z x => (x, y, z)) [0, 2, 3, 1])

end Eclib.Legendre
