import Verif.Marith.Model
import Verif.Curve.Model

/-!
# Model of libsrc/sifter.cc: sifting points modulo `2E(ℚ)`

The class `sifter` maps points of `E(ℚ)` to vectors over `ℤ/2` using auxiliary primes and keeps a
matrix in echelon form; its rank is a lower bound for the rank of the points modulo `2E(ℚ)`.

Not modelled: the verbose output, the overflow of `long` in `nrootscubic` (the primes are small), the
table of primes (`primevar` is replaced by a list of primes, `none` if it is too short).
-/

namespace Eclib.Sift

open Eclib.Curve

/-- the loop of `nrootscubic` (libsrc/marith.cc:1156-1169): `n` values `r, r+1, …` are left.  `std::sort` is
`List.insertionSort` -/
def nrcLoop (b c d p : Int) : Nat → Int → List Int → List Int
  | 0, _, roots => roots
  | n + 1, r, roots =>
    if (((r + b) * r + c) * r + d).tmod p == 0 then
      match roots with
      | [r0] => [r0, r, Arith.posmod (-b - r0 - r) p].insertionSort (· ≤ ·)
      | _ => nrcLoop b c d p n (r + 1) (roots ++ [r])
    else nrcLoop b c d p n (r + 1) roots

/-- `nrootscubic` (libsrc/marith.cc:1151-1171); the returned number is the length of the list `roots` -/
def nrootscubic (b c d p : Int) : List Int := nrcLoop b c d p p.toNat 0 []

/-- an auxiliary prime `auxs[i]` and the roots `thetamod[i]`; `nroots[i]` is the length (sifter.h:42-44) -/
structure Aux where
  p : Nat
  roots : List Int
deriving DecidableEq, Repr

/-- the loop over the primes of the constructor (libsrc/sifter.cc:56-73): `na` primes are still to be found -/
def findAux (I J disc : Int) : Nat → List Nat → Option (List Aux)
  | 0, _ => some []
  | _ + 1, [] => none
  | na + 1, p :: ps =>
    if disc.fmod p == 0 then findAux I J disc (na + 1) ps
    else
      let c1 := Marith.mod (-27 * I) p
      let c2 := Marith.mod (-27 * J) p
      let roots := nrootscubic 0 c1 c2 p
      if roots.length > 0 then (findAux I J disc na ps).map (fun (l : List Aux) => ⟨p, roots⟩ :: l)
      else findAux I J disc (na + 1) ps

/-- the table `squares[i]` (libsrc/sifter.cc:105-112); the loop runs over the `j` with `2*j < aux` -/
def squaresTab (aux : Nat) : List Bool :=
  (List.range ((aux + 1) / 2)).foldl (fun (t : List Bool) j => t.set (j * j % aux) true) (List.replicate aux false)

/-- the object: the curve's constants, the auxiliary primes, and the rows of `eps_mat` with their pivot columns `pivcols`;
`rank` is the number of rows (sifter.h:34-44) -/
structure Sifter where
  I : Int
  r : Int
  auxs : List Aux
  rows : List (List Bool × Nat)
deriving DecidableEq, Repr

/-- `max_dim_im` (libsrc/sifter.cc:70-71) -/
def maxDim (auxs : List Aux) : Nat := (auxs.map (fun (a : Aux) => if a.roots.length > 1 then 2 else 1)).sum

/-- the constructor (libsrc/sifter.cc:30-116); `primes` are the values of `pr`, from 5 on -/
def Sifter.init (E : Cd) (na : Nat) (primes : List Nat) : Option Sifter :=
  (findAux E.c4 (2 * E.c6) E.discr na primes).map (fun (l : List Aux) => ⟨E.c4, 3 * E.b2, l, []⟩)

/-- the signs `eps[j]` of `code` (libsrc/sifter.cc:246-251) -/
def sgn (sq : List Bool) (alpha : Int) : Int :=
  2 * (if sq.getD alpha.toNat false then 1 else 0) - (if alpha == 0 then 1 else 0) - 1

/-- `code` (libsrc/sifter.cc:233-265) -/
def code (I : Int) (a : Aux) (x z2 : Int) : Nat :=
  let p : Int := a.p
  let sq := squaresTab a.p
  match a.roots with
  | [theta] =>
    let alpha := Marith.posmod (x - theta * z2) p
    if alpha ≠ 0 then (if sq.getD alpha.toNat false then 0 else 1)
    else
      let beta := Marith.posmod (3 * x * x - 27 * I * z2 * z2) p
      if sq.getD beta.toNat false then 0 else 1
  | [t0, t1, t2] =>
    let e0 := sgn sq (Marith.posmod (x - t0 * z2) p)
    let e1 := sgn sq (Marith.posmod (x - t1 * z2) p)
    let e2 := sgn sq (Marith.posmod (x - t2 * z2) p)
    let e0' := if e0 == 0 then e1 * e2 else e0
    let e1' := if e0 == 0 then e1 else if e1 == 0 then e0 * e2 else e1
    if e0' == 1 then (if e1' == 1 then 0 else 1)
    else (if e1' == 1 then 2 else 3)
  | _ => 0

/-- `eps` (libsrc/sifter.cc:130-147) -/
def eps (S : Sifter) (x z2 : Int) : List Bool :=
  S.auxs.flatMap (fun (a : Aux) =>
    let c := code S.I a x z2
    if a.roots.length == 1 then [c % 2 == 1] else [c % 2 == 1, c / 2 % 2 == 1])

/-- the elimination (libsrc/sifter.cc:192-202) -/
def elim (image : List Bool) (rows : List (List Bool × Nat)) : List Bool :=
  rows.foldl (fun (im : List Bool) (r : List Bool × Nat) =>
    if im.getD r.2 false then List.zipWith xor im r.1 else im) image

/-- `process(const Point&)` (libsrc/sifter.cc:160-231).  `none` if NTL's division by zero aborts the program (the point at
infinity), or if a row is written outside the matrix `eps_mat` -/
def process (S : Sifter) (P : P2) : Option Sifter :=
  let z : Int := Int.gcd P.X P.Z
  if z == 0 then none
  else
    let x0 := P.X.fdiv z
    let z2 := z * z
    let x := 36 * x0 + S.r * z2
    let image := elim (eps S x z2) S.rows
    match image.findIdx? id with
    | none => some S
    | some j => if S.rows.length < maxDim S.auxs then some { S with rows := S.rows ++ [(image, j)] } else none

/-- `process(const vector<Point>&)` (libsrc/sifter.cc:149-156) -/
def processAll (S : Sifter) : List P2 → Option Sifter
  | [] => some S
  | P :: Ps => (process S P).bind (fun (S' : Sifter) => processAll S' Ps)

/-- `getrank` (sifter.h:51) -/
def Sifter.rank (S : Sifter) : Nat := S.rows.length

end Eclib.Sift
