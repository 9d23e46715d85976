import Verif.Forms.Model
import Verif.Arith.Model
import Verif.Marith.Model

/-!
# Model of libsrc/mglobsol.cc: `ratpoint` and the sieve of class `quartic_sieve`

`stoll_search` (libsrc/sieve_search.cc) is not part of this file.
-/

namespace Eclib.Search

open Forms (G)
open Marith (isqrt)

/-- the value `a u⁴ + b u³ w + c u² w² + d u w³ + e w⁴` -/
abbrev val (g : G) (u w : ℤ) : ℤ :=
  g.a * u ^ 4 + g.b * u ^ 3 * w + g.c * u ^ 2 * w ^ 2 + g.d * u * w ^ 3 + g.e * w ^ 4

/-! ## naive search -/

/-- `test` (mglobsol.cc:29-35) -/
def test (x z y2 : ℤ) : Option (ℤ × ℤ × ℤ) :=
  if (isqrt y2).1 = true then some (x, ((isqrt y2).2 : ℤ), z) else none

/-- One value of `sx` (mglobsol.cc:56-69) -/
def ratX (g : G) (n sx : ℤ) : Option (ℤ × ℤ × ℤ) :=
  if Int.gcd sx n = 1 then
    let x := sx
    let z := n - x
    let ax4 := g.a * x ^ 4
    let bx3z := g.b * x ^ 3 * z
    let cx2z2 := g.c * x ^ 2 * z ^ 2
    let dxz3 := g.d * x * z ^ 3
    let ez4 := g.e * z ^ 4
    (test x z (ax4 + bx3z + cx2z2 + dxz3 + ez4)).or (test (-x) z (ax4 - bx3z + cx2z2 - dxz3 + ez4))
  else none

/-- One value of `n` (mglobsol.cc:46-70) -/
def ratN (g : G) (n : ℤ) : Option (ℤ × ℤ × ℤ) :=
  if n = 1 then (test 1 0 g.a).or (test 0 1 g.e)
  else ((List.range (n - 1).toNat).map fun i : ℕ => (i : ℤ) + 1).findSome? (ratX g n)

/-- `ratpoint` (mglobsol.cc:37-72); the result is the point `(xx, yy, zz)` found, `none` for the return value 0 -/
def ratpoint (g : G) (min max : ℤ) : Option (ℤ × ℤ × ℤ) :=
  if (isqrt g.a).1 = true then some (1, ((isqrt g.a).2 : ℤ), 0)
  else if (isqrt g.e).1 = true then some (0, ((isqrt g.e).2 : ℤ), 1)
  else ((List.range (max - min + 1).toNat).map fun i : ℕ => min + (i : ℤ)).findSome? (ratN g)

/-! ## the constructor of `quartic_sieve` -/

/-- `two_is_ok` for the denominators (mglobsol.cc:103-116) -/
def twoOkW (g : G) : Bool :=
  let a8 := Marith.mod g.a 8
  let b8 := Marith.mod (2 * g.b) 8
  let c8 := Marith.mod (4 * g.c) 8
  [0, 1, 2, 3].any fun z0 : ℤ => [1, 3, 5, 7].any fun x : ℤ =>
    let t := (a8 + c8 * z0 * z0).tmod 8
    let tt := Arith.mod (t + b8 * x * z0) 8
    tt == 0 || tt == 1 || tt == 4

/-- `two_is_ok` for the numerators (mglobsol.cc:129-138); here `%8` in place of `mod(,8)` -/
def twoOkU (g : G) : Bool :=
  let e8 := Marith.mod g.e 8
  let d8 := Marith.mod (2 * g.d) 8
  let c8 := Marith.mod (4 * g.c) 8
  [0, 1, 2, 3].any fun z0 : ℤ => [1, 3, 5, 7].any fun x : ℤ =>
    let t := (e8 + c8 * z0 * z0).tmod 8
    let tt := (t + d8 * x * z0).tmod 8
    tt == 0 || tt == 1 || tt == 4

/-- `legendre(const bigint&, long)` (marith.cc:1050-1057), for `b > 0` -/
def legendreBL (a b : ℤ) : Option ℤ :=
  if b.tmod 2 = 0 then some 0 else Arith.legendre (a.fmod b) b

/-- The list `wprimes` or `uprimes` (mglobsol.cc:117-123, 139-145): 2 unless `two_is_ok`, then primes `p` with
`legendre(a,p) = -1`, 25 in all.  `prs` is the list of primes from 3 on; the code runs through the primes until the list
is full, here the list ends when `prs` does. -/
def badPrimes (two : Bool) (a : ℤ) (prs : List ℤ) : List ℤ :=
  ((if two then [] else [2]) ++ prs.filter fun p => legendreBL a p == some (-1)).take 25

/-- Data set up by the constructor (mglobsol.cc:75-185): `easy`, `wprimes`, `uprimes`, the auxiliary moduli -/
structure Sv where
  wprimes : List ℤ
  uprimes : List ℤ
  auxs : List ℕ

/-- The auxiliary moduli for `moduli_option` 1, 2 and others (mglobsol.cc:153-171) -/
def auxList (opt : ℕ) : List ℕ :=
  if opt = 1 then [3, 5, 7, 11, 13, 17, 19, 23, 29, 31]
  else if opt = 2 then [5184, 5929, 4225] else [32, 9, 25, 49, 11, 13, 17, 19, 23]

/-- The constructor (mglobsol.cc:75-185) for `moduli_option ≠ 0` -/
def mkSieve (g : G) (prs : List ℤ) (opt : ℕ) : Sv :=
  if (isqrt g.a).1 = true ∨ (isqrt g.e).1 = true then ⟨[], [], auxList opt⟩
  else ⟨badPrimes (twoOkW g) g.a prs, badPrimes (twoOkU g) g.e prs, auxList opt⟩

/-! ## `search_range` -/

/-- The table of squares modulo `aux` (mglobsol.cc:177-185): entry `r` is set when `r = j² (mod aux)` for some
`j < (aux+1)/2` -/
def squares (aux : ℕ) : List Bool :=
  (List.range aux).map fun r : ℕ => (List.range ((aux + 1) / 2)).any fun j : ℕ => Arith.posmod ((j : ℤ) * j) aux == (r : ℤ)

/-- The loop setting `flag[x]` by differences (mglobsol.cc:509-516) -/
def flagLoop (aux : ℕ) (sqs : List Bool) (d4 : ℤ) : ℕ → ℤ → ℤ → ℤ → ℤ → List Bool
  | 0, _, _, _, _ => []
  | n + 1, f, df, ddf, dddf =>
    let red : ℤ → ℤ := fun x => if x ≥ aux then x - aux else x
    sqs.getD f.toNat false :: flagLoop aux sqs d4 n (red (f + df)) (red (df + ddf)) (red (ddf + dddf)) (red (dddf + d4))

/-- The flags computed for one modulus (mglobsol.cc:492-517) -/
def flags (g : G) (w : ℤ) (aux : ℕ) : List Bool :=
  let paw := Marith.posmod g.a aux
  let pbw := Marith.posmod (g.b * w) aux
  let pcw := Marith.posmod (g.c * w ^ 2) aux
  let pdw := Marith.posmod (g.d * w ^ 3) aux
  let pew := Marith.posmod (g.e * w ^ 4) aux
  flagLoop aux (squares aux) (Arith.posmod (24 * paw) aux) aux (Arith.posmod pew aux)
    (Arith.posmod (paw + pbw + pcw + pdw) aux) (Arith.posmod (14 * paw + 6 * pbw + 2 * pcw) aux)
    (Arith.posmod (36 * paw + 6 * pbw) aux)

/-- The contents of `xgood_mod_aux` during the loop on `u`.  The declaration `vector<int> flag = xgood_mod_aux[index]`
(mglobsol.cc:507) makes a copy, so that the flags computed are lost and the table keeps its initial zeros: the code is
`stored = false`.  `stored = true` is what the code would be with a reference in this declaration. -/
def xgood (stored : Bool) (g : G) (w : ℤ) (auxs : List ℕ) : List (List Bool) :=
  auxs.map fun aux : ℕ => if stored then flags g w aux else List.replicate aux false

/-- The table `wflag` of residues coprime to `w` (mglobsol.cc:484-489) -/
def wflag (w : ℕ) : List Bool :=
  (List.range w).map fun i => if i = 0 then decide (w = 1) else
    decide (Nat.gcd (if i ≤ w - i then i else w - i) w = 1)

/-- The state of the search: number of points, the last point found, and the residues of `u` -/
structure St where
  n : ℕ
  pt : ℤ × ℤ × ℤ
  umods : List ℤ
  umodw : ℤ

/-- One value of `u` (mglobsol.cc:521-574); the loops `while(umodi >= m) umodi -= m` are written as `%` -/
def uStep (g : G) (S : Sv) (xg : List (List Bool)) (w : ℕ) (sv gt : Bool) (ustep : ℤ) (maxn : ℕ) (st : St) (u : ℤ) : St :=
  if st.n < maxn then
    let umods := if sv then List.zipWith (fun (m : ℕ) r => (r + ustep) % (m : ℤ)) S.auxs st.umods else st.umods
    let ok := if sv then (List.zipWith (fun (l : List Bool) (r : ℤ) => l.getD r.toNat false) xg umods).all id else true
    let umodw := if gt then (st.umodw + ustep) % (w : ℤ) else st.umodw
    let ok := if gt then (wflag w).getD umodw.toNat false else ok
    if ok && S.uprimes.all (fun p => u % p != 0) then
      let f := (((g.a * u + g.b * w) * u + g.c * (w : ℤ) ^ 2) * u + g.d * (w : ℤ) ^ 3) * u + g.e * (w : ℤ) ^ 4
      if (isqrt f).1 = true then ⟨st.n + 1, (u, ((isqrt f).2 : ℤ), (w : ℤ)), umods, umodw⟩
      else ⟨st.n, st.pt, umods, umodw⟩
    else ⟨st.n, st.pt, umods, umodw⟩
  else st

/-- `n` values `first, first + step, ...` -/
def stepsN (step : ℤ) : ℕ → ℤ → List ℤ
  | 0, _ => []
  | n + 1, first => first :: stepsN step n (first + step)

/-- the values `first, first + step, ...` up to `last` -/
def steps (first last step : ℤ) : List ℤ := stepsN step ((last - first) / step + 1).toNat first

/-- One value of `w` (mglobsol.cc:428-575).  `bd w` is the pair `(first_u, last_u)` computed from `ulim` and the
floating-point bounds (mglobsol.cc:431-439). -/
def wStep (stored : Bool) (g : G) (S : Sv) (bd : ℕ → ℤ × ℤ) (maxn : ℕ) (st : St) (w : ℕ) : St :=
  if st.n < maxn then
    let oddU := S.uprimes.head? == some 2
    let ustep : ℤ := if oddU then 2 else 1
    let first := if oddU && (bd w).1 % 2 == 0 then (bd w).1 + 1 else (bd w).1
    let last := if oddU && (bd w).2 % 2 == 0 then (bd w).2 - 1 else (bd w).2
    if first > last then st
    else if S.wprimes.all (fun p => (w : ℤ) % p != 0) then
      let sv := decide (last - first > 10)
      let gt := sv && decide (w < 10000) && decide (last - first > ((w / 2 : ℕ) : ℤ))
      let umods := if sv then S.auxs.map fun m : ℕ => Arith.posmod (first - ustep) m else st.umods
      let umodw := if gt then Arith.posmod (first - ustep) w else 0
      (steps first last ustep).foldl (uStep g S (xgood stored g w S.auxs) w sv gt ustep maxn) ⟨st.n, st.pt, umods, umodw⟩
    else st
  else st

/-- The values of `w`: from 1 to `ulim`, only the odd ones if 2 is in the list `wprimes` (mglobsol.cc:414-428) -/
def wList (S : Sv) (ulim : ℕ) : List ℕ :=
  ((List.range ulim).map (· + 1)).filter fun w => !(S.wprimes.head? == some 2) || w % 2 == 1

/-- `search_range` (mglobsol.cc:375-579) from the state with `n` points -/
def searchRange (stored : Bool) (g : G) (S : Sv) (bd : ℕ → ℤ × ℤ) (ulim maxn : ℕ) (st : St) : St :=
  (wList S ulim).foldl (wStep stored g S bd maxn) st

end Eclib.Search
