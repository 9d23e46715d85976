import Verif.Arith.Model
import Verif.Marith.Model

/-!
# Model of libsrc/sieve_search.cc: class `qsieve` (Stoll's sieve for points on `y² = f(x)`)

Words are 64 bits (`QS_LONG_LENGTH = 64`, sieve_search.h:83-88).  The polynomial is given by `deg` (`degree`) and
`c 0, …, c deg` (`c[]`).  Messages, memory management and the counters `num_surv1`, `num_surv2` are left out.
-/

namespace Eclib.Stoll

open Marith (isqrt posmod)

abbrev W := BitVec 64

/-- `qsieve::prime` (sieve_search.cc:52) -/
def primes : List ℕ :=
  [3, 5, 7, 11, 13, 17, 19, 23, 29, 31, 37, 41, 43, 47, 53, 59, 61, 67, 71, 73, 79, 83, 89, 97, 101, 103, 107, 109, 113,
   127, 131, 137, 139, 149, 151, 157, 163, 167, 173, 179, 181, 191, 193, 197, 199, 211, 223, 227, 229, 233, 239, 241, 251]

/-! ## tables of squares -/

/-- `squares[pn]` (`init_all`, sieve_search.cc:157-163): the entries of `a²` for `a = 0, 2, 4, …` are set -/
def squares (p : ℕ) : List Bool :=
  (List.range ((p + 1) / 2)).foldl (fun t i => t.set (2 * i * (2 * i) % p) true) (List.replicate p false)

/-- `coeffs_mod_p` (sieve_search.cc:447-448) -/
def cmod (c : ℕ → ℤ) (p n : ℕ) : ℕ := (posmod (c n) p).toNat

/-- Horner's method modulo `p` (sieve_search.cc:455-461), `n` steps -/
def hornerMod (c : ℕ → ℤ) (deg p a : ℕ) : ℕ → ℕ
  | 0 => cmod c p deg
  | n + 1 => (hornerMod c deg p a n * a + cmod c p (deg - (n + 1))) % p

/-- `is_f_square[pn][a]` (sieve_search.cc:450-464) -/
def isF (c : ℕ → ℤ) (deg p a : ℕ) : Bool :=
  if a = 0 then (squares p).getD (cmod c p 0) false else (squares p).getD (hornerMod c deg p a deg) false

/-- `(degree&1) || squares[pn][coeffs_mod_p[pn][degree]]` (sieve_search.cc:468, 689) -/
def leadOk (c : ℕ → ℤ) (deg p : ℕ) : Bool := deg % 2 == 1 || (squares p).getD (cmod c p deg) false

/-- `prec[pn].r == 0.0` (sieve_search.cc:466-472) -/
def rZero (c : ℕ → ℤ) (deg p : ℕ) : Bool := !leadOk c deg p && (List.range p).all fun a => !isF c deg p a

/-! ## excluded numerators and denominators -/

/-- `odd_nums` (sieve_search.cc:339-349) -/
def oddNums (c : ℕ → ℤ) (deg : ℕ) : Bool :=
  let t1 := posmod (c 0) 8
  let t2 := posmod (c 1) 4 + 2 * posmod (c 2) 2
  deg % 2 == 0 &&
    (if t1 = 2 ∨ t1 = 3 ∨ t1 = 6 ∨ t1 = 7 then decide (t2 % 2 = 0) else if t1 = 5 then decide (t2 % 4 = 0) else false)

/-- the power of 2 in `forbidden` (sieve_search.cc:354-376) -/
def forb2 (c : ℕ → ℤ) (deg : ℕ) : List ℕ :=
  let t1 := posmod (c deg) 8
  let t2 := posmod (c (deg - 1)) 4
  let t3 := posmod (c (deg - 2)) 2
  if t1 = 2 ∨ t1 = 3 ∨ t1 = 6 ∨ t1 = 7 then (if t2 % 2 = 0 then [2] else [4])
  else if t1 = 5 then (if (t2 + 2 * t3) % 4 = 0 then [2] else if t2 % 2 = 0 then [4] else [8]) else []

/-- the power of 3 (sieve_search.cc:383-392) -/
def forb3 (c : ℕ → ℤ) (deg : ℕ) : List ℕ :=
  let t := posmod (c deg) 9
  let t1 := t % 3
  let t2 := posmod (c (deg - 1)) 3
  if t1 = 2 then [3] else if t = 3 ∨ t = 6 then (if t2 = 0 then [3] else [9]) else []

/-- the power of 5 (sieve_search.cc:400-409) -/
def forb5 (c : ℕ → ℤ) (deg : ℕ) : List ℕ :=
  let t := posmod (c deg) 25
  let t1 := t % 5
  let t2 := posmod (c (deg - 1)) 5
  if t1 = 2 ∨ t1 = 3 then [5] else if t ≠ 0 ∧ t1 = 0 then (if t2 = 0 then [5] else [25]) else []

/-- the power of 7 (sieve_search.cc:417-435) -/
def forb7 (c : ℕ → ℤ) (deg : ℕ) : List ℕ :=
  let t := posmod (c deg) 49
  let t1 := t % 7
  let t2 := posmod (c (deg - 1)) 7
  if t1 = 3 ∨ t1 = 5 ∨ t1 = 6 then [7] else if t ≠ 0 ∧ t1 = 0 then (if t2 = 0 then [7] else [49]) else []

/-- `forbidden` (sieve_search.cc:336-474) when `check_denom` is set -/
def forbidden (c : ℕ → ℤ) (deg : ℕ) : List ℕ :=
  forb2 c deg ++ forb3 c deg ++ forb5 c deg ++ forb7 c deg ++
    primes.filter fun p => !leadOk c deg p && decide (7 < p)

/-- `use_opt` (sieve_search.cc:77, 361, 366): 0 if the denominators are odd -/
def useOpt (c : ℕ → ℤ) (deg : ℕ) (checkDenom : Bool) : Bool := !(checkDenom && forb2 c deg == [2])

/-! ## the bit patterns -/

/-- `help[b][n>>QS_LONG_SHIFT] |= bits[n & QS_LONG_MASK]` -/
def setBit (h : List W) (n : ℕ) : List W := h.set (n / 64) (h.getD (n / 64) 0 ||| (1#64 <<< (n % 64)))

/-- The positions set for the residue `ab` (sieve_search.cc:577-600): for `p < 64` the pattern is repeated -/
def places (p ab : ℕ) : List ℕ := if p < 64 then (List.range (64 / p + 1)).map fun i => ab + i * p else [ab]

/-- `ab = (ab&1) ? (ab-1)>>1 : (ab-1+p)>>1` (sieve_search.cc:617) -/
def half (p ab : ℕ) : ℕ := if ab % 2 = 1 then (ab - 1) / 2 else (ab + p - 1) / 2

/-- `help[b]` (`odd = false`, sieve_search.cc:565-601) and `help2[b]` (`odd = true`, 604-637) -/
def help (c : ℕ → ℤ) (deg p b : ℕ) (odd : Bool) : List W :=
  (List.range p).foldl (fun h a =>
    if isF c deg p a = true then
      (places p (if odd = true then half p (a * b % p) else a * b % p)).foldl setBit h else h)
    (List.replicate ((if p / 64 = 0 then 1 else p / 64) + 1) 0)

/-- The loop rotating the pattern (sieve_search.cc:655-664, 682-691), `n` words; `s` is `diff_shift` -/
def fill (wp s : ℕ) : ℕ → List W → ℕ → List W
  | 0, _, _ => []
  | n + 1, he, a1 =>
    let nx := if a1 = wp then 0 else a1 + 1
    let w := he.getD a1 0 ||| ((he.getD nx 0 &&& ~~~(BitVec.allOnes 64 <<< (64 - s))) <<< s)
    let he1 := he.set a1 w
    w :: fill wp s n (he1.set nx (he1.getD nx 0 >>> (64 - s))) nx

/-- `sieve[pn][b]` (sieve_search.cc:639-665) and `sieve2[pn][b]` (667-692) for `0 < b < p`, and for `b = 0`
(sieve_search.cc:694-703).  `kp = p`, because `tech = 1` (sieve_search.cc:59, 545-549). -/
def row (c : ℕ → ℤ) (deg p b : ℕ) (odd : Bool) : List W :=
  if b = 0 then List.replicate p (if leadOk c deg p = true then BitVec.allOnes 64 else 0)
  else
    let p1 := (64 / p + 1) * p
    let he := help c deg p b odd
    he.take (p1 / 64) ++ fill (p1 / 64) (p1 % 64) (p - p1 / 64) he (p1 / 64)

/-! ## the search -/

/-- The points handed to `process`, newest first, and `halt_flag` -/
structure St where
  pts : List (ℤ × ℤ × ℤ)
  halt : Bool

/-- The polynomial, `use_squares` and the object that processes points: `stop` is the value returned by `process`, which
may depend on all the points so far -/
structure Poly where
  deg : ℕ
  c : ℕ → ℤ
  stop : List (ℤ × ℤ × ℤ) → Bool

/-- `use_squares` (sieve_search.cc:1073-1074) -/
def useSquares (f : Poly) : Bool := f.deg % 2 == 1 && f.c f.deg == 1

/-- `fff` (sieve_search.cc:959-976), `n` steps; `bc[k] = c[k]*b^(degree-k)` -/
def horner (c : ℕ → ℤ) (deg : ℕ) (a b : ℤ) : ℕ → ℤ
  | 0 => c deg
  | n + 1 => horner c deg a b n * a + c (deg - (n + 1)) * b ^ (n + 1)

/-- the number tested for being a square (sieve_search.cc:959-978) -/
def fff (f : Poly) (a b : ℤ) : ℤ :=
  if f.deg % 2 = 1 ∧ useSquares f = false then horner f.c f.deg a b f.deg * b else horner f.c f.deg a b f.deg

/-- A call of `process` -/
def callProc (f : Poly) (st : St) (q : ℤ × ℤ × ℤ) : St := ⟨q :: st.pts, f.stop (q :: st.pts)⟩

/-- One bit in `check_point` (sieve_search.cc:950-991), `no_check = 0` -/
def tryBit (f : Poly) (b : ℕ) (nums : W) (i : ℤ) (odd : Bool) (st : St) (j : ℕ) : St :=
  if st.halt = true then st
  else
    let a := if odd = true then 2 * (i * 64) + 1 + 2 * (j : ℤ) else i * 64 + j
    if nums.getLsbD j = true ∧ Arith.gcd a b = 1 then
      if (isqrt (fff f a b)).1 = true then callProc f st (a, (isqrt (fff f a b)).2, b) else st
    else st

/-- the index used in the second stage (sieve_search.cc:918-935) -/
def ipIdx (i : ℤ) (p : ℕ) : ℕ :=
  if i < 0 then (if i.tmod p ≠ 0 then i.tmod p + p else i.tmod p).toNat else (i.tmod p).toNat

/-- `check_point` (sieve_search.cc:903-1007); `ps2` are the primes of the second stage -/
def checkPoint (f : Poly) (ps2 : List ℕ) (b : ℕ) (odd : Bool) (st : St) (i : ℤ) (nums : W) : St :=
  let n2 := ps2.foldl (fun n p => n &&& (row f.c f.deg p (b % p) odd).getD (ipIdx i p) 0) nums
  (List.range 64).foldl (tryBit f b n2 i odd) st

/-- `w_floor` (sieve_search.h:161-162) -/
def wFloor (a b : ℤ) : ℤ := if a < 0 then -(1 + (-a - 1).tdiv b) else a.tdiv b

/-- `w_ceil` (sieve_search.h:163-164) -/
def wCeil (a b : ℤ) : ℤ := if a ≤ 0 then -((-a).tdiv b) else 1 + (a - 1).tdiv b

/-- The indices of the words of the sieve used for the survivors `w_low, …, w_high-1` (sieve_search.cc:850-883), in the
three segments of the code -/
def idx (kp : ℕ) (wl wh : ℤ) : List ℕ :=
  let pl := wCeil wl kp
  let ph := wFloor wh kp
  if ph < pl then (List.range (wh - wl).toNat).map fun t => (wl - kp * ph).toNat + t
  else
    let j := (kp * pl - wl).toNat
    ((List.range j).map fun t => kp - j + t) ++ (List.replicate (ph - pl).toNat (List.range kp)).flatten ++
      List.range (wh - kp * ph).toNat

/-- `sift0` (sieve_search.cc:836-901): `surv` are the survivors for `w_low, …` -/
def sift0 (f : Poly) (ps1 ps2 : List ℕ) (b : ℕ) (odd : Bool) (wl wh : ℤ) (surv : List W) (st : St) : St :=
  let s := ps1.foldl (fun s p => List.zipWith (fun x k => x &&& (row f.c f.deg p (b % p) odd).getD k 0) s (idx p wl wh)) surv
  s.zipIdx.foldl (fun st (x : W × ℕ) =>
    if st.halt = true then st else if x.1 = 0 then st else checkPoint f ps2 b odd st (wl + x.2) x.1) st

/-- `QS_HALF_MASK` (sieve_search.h:89) -/
def halfMask : W := ~~~(BitVec.allOnes 64 / 3#64)

/-- The loop over chunks of at most `asz` words (sieve_search.cc:803-830), with a bound for the number of chunks -/
def chunks (f : Poly) (ps1 ps2 : List ℕ) (asz : ℕ) (b : ℕ) (odd : Bool) (low high wl wh : ℤ) : ℕ → ℤ → St → St
  | 0, _, st => st
  | n + 1, w0, st =>
    if w0 < wh then
      let w1 := if w0 + asz > wh then wh else w0 + asz
      let surv := List.replicate (w1 - w0).toNat (if odd = false ∧ b % 2 = 0 then halfMask else BitVec.allOnes 64)
      let surv := if w0 = wl then surv.set 0 (surv.getD 0 0 &&& (BitVec.allOnes 64 <<< (low - 64 * wl).toNat)) else surv
      let k := (w1 - w0).toNat - 1
      let surv := if w1 = wh then surv.set k (surv.getD k 0 &&& (BitVec.allOnes 64 >>> (64 * wh - high).toNat)) else surv
      let st := sift0 f ps1 ps2 b odd w0 w1 surv st
      if st.halt = true then st else chunks f ps1 ps2 asz b odd low high wl wh n (w0 + asz) st
    else st

/-- One interval in `sift` (sieve_search.cc:766-831): `lh` is the pair `(low, high)` computed from `domain[k]` and `b`,
before `high++` -/
def siftInt (f : Poly) (ps1 ps2 : List ℕ) (asz : ℕ) (b : ℕ) (odd : Bool) (st : St) (lh : ℤ × ℤ) : St :=
  if st.halt = true then st
  else
    let low := if odd = true then lh.1 / 2 else lh.1
    let high := if odd = true then (lh.2 + 1 - 1) / 2 else lh.2 + 1
    if low < high then
      let wl := wFloor low 64
      let wh := wCeil high 64
      chunks f ps1 ps2 asz b odd low high wl wh (wh - wl).toNat wl st
    else st

/-- The data of a search: `ps1`, `ps2` are the primes of the two stages, `asz` is `array_size` (in words), `bd b` the list
of intervals for the numerators with the denominator `b` (sieve_search.cc:768-796, floating-point arithmetic; for the
default domain `[-height, height]` it is `[(-height, height)]`). -/
structure Par where
  ps1 : List ℕ
  ps2 : List ℕ
  asz : ℕ
  bLow : ℕ
  bHigh : ℕ
  bd : ℕ → List (ℤ × ℤ)
  infty : Bool

/-- `check_denom` at the loop (sieve_search.cc:1067-1072, 514-516) -/
def checkDenom (f : Poly) : Bool := !(f.deg % 2 == 1 || (isqrt (f.c f.deg)).1)

/-- `sift` (sieve_search.cc:719-834) -/
def sift (f : Poly) (P : Par) (st : St) (b : ℕ) : St :=
  if st.halt = true then st
  else
    let odd := oddNums f.c f.deg || (b % 2 == 0 && useOpt f.c f.deg (checkDenom f))
    (P.bd b).foldl (siftInt f P.ps1 P.ps2 P.asz b odd) st

/-- The denominators examined (sieve_search.cc:1110-1175) -/
def denoms (f : Poly) (P : Par) : List ℕ :=
  if useSquares f = true then
    ((List.range' P.bLow (Nat.sqrt P.bHigh + 1 - P.bLow)).map fun b => b * b)
  else (List.range' P.bLow (P.bHigh + 1 - P.bLow)).filter fun b =>
    !checkDenom f || (forbidden f.c f.deg).all fun q => b % q != 0

/-- `search` (sieve_search.cc:1034-1178).  The floor of the floating-point square root of `b_high` is exact for
`b_high < 2^52`. -/
def search (f : Poly) (P : Par) : St :=
  let st : St := ⟨[], false⟩
  let st := if !checkDenom f && P.infty then callProc f st (0, 1, 0) else st
  if st.halt = true then st
  else if P.ps1 ++ P.ps2 ≠ [] ∧ primes.any (rZero f.c f.deg) = true then st
  else (denoms f P).foldl (sift f P) st

end Eclib.Stoll
