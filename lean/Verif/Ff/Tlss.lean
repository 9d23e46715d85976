import Verif.Ff.Model
import Verif.Pmod.BgModel
import Verif.Pmod.BgProps
import Verif.Pmod.Law

/-!
# Model of tlss.cc: the maps E(F_q) → F_p used to prove p-saturation

`E(F_q)/pE(F_q)` is mapped to `F_p^rank` by a discrete logarithm when the p-torsion of `E(F_q)` is cyclic, else by the
Tate-Lichtenbaum pairing with the basis of the p-torsion.  The points are elements of Mathlib's group of points, their coordinates
are used where the code uses them.
-/

namespace Eclib.Ff

open Pmod (Pq coords)

variable {F : Type} [Field F] [DecidableEq F]

/-- `root_of_unity` (gf.h:82-94); `rs` are the random elements tried -/
def rootOfUnity (q n : ℕ) (rs : List F) : Option F :=
  if (q - 1) % n ≠ 0 then some 0
  else (rs.find? (fun r => r ≠ 0 ∧ r ^ ((q - 1) / n) ≠ 1)).map (fun r => r ^ ((q - 1) / n))

/-- `roots_of_unity` (gf.h:104-113): `mu_p[i] = mu_p[i-1]*mu` -/
def rootsOfUnity (mu : F) (p : ℕ) : List F := List.iterate (· * mu) 1 p

variable (E : WeierstrassCurve F)

/-- the value for `p = 2` (tlss.cc:153-170) -/
def tl2 (q1p : ℕ) (T P : Pq F) : Option ℤ :=
  match T, P with
  | .pt xT _, .pt xP _ =>
    let b2 := E.a₁ * E.a₁ + 4 * E.a₂
    let b4 := 2 * E.a₄ + E.a₁ * E.a₃
    let t := xP - xT
    let t := if t = 0 then
      let lambda := 4 * xT + b2
      let mu := xT * lambda + b4 + b4
      4 * xP * xP + lambda * xP + mu
    else t
    let mu := t ^ q1p
    some (if mu = 1 then 0 else 1)
  | _, _ => none

/-- the value for `p > 2` (tlss.cc:171-219) with the function `tl`; a root of unity which is not found in the list gives `dl = p` -/
def tlOdd (p q1p : ℕ) (mup : List F) (tl : FF F) (P : Pq F) : Option ℤ := do
  let t ← evaluate tl P
  let sw := t = 0
  let t ← if t = 0 then evaluate tl (Pq.neg E P) else some t
  let mu := t ^ q1p
  if mu = 1 then pure 0
  else
    let dl := mup.idxOf mu
    pure (if sw then (p : ℤ) - dl else dl)

/-- one component of the Tate-Lichtenbaum map (tlss.cc:137-221) -/
def tlComp (p q1p : ℕ) (mup : List F) (T : Pq F) (P : Pq F) : Option ℤ :=
  if p = 2 then tl2 E q1p T P else tlOdd E p q1p mup (weilPol E T p) P

/-- `TLSS::map1point` (tlss.cc:96-226) after the reduction of the point: `Pi` is the basis of the p-torsion, `n` the order of the group
and `n1` the order of the cyclic factor (0 if not known); `init_tlpolys` (tlss.cc:65-91) has set `TLpolys[i] = weil_pol(Pi[i],p)` and
`q1p = (q-1)/p` -/
def map1point {κ : Type} [DecidableEq κ] {E : WeierstrassCurve F} (key : E.toAffine.Point → κ) (p q : ℕ) (mup : List F)
    (Pi : List E.toAffine.Point) (n n1 : ℤ) (A : E.toAffine.Point) : Option (List ℤ) :=
  if A = 0 then some (Pi.map fun _ => 0)
  else match Pi with
    | [P1] =>
      let n1 := if n1 = 0 then n else n1
      let A := (n1 / p) • A
      if A = 0 then some [0] else some [Pmod.bg key P1 A 0 p]
    | _ => Pi.mapM fun T => tlComp E p ((q - 1) / p) mup (coords T) (coords A)

end Eclib.Ff
