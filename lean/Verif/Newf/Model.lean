import Verif.Hom.HeilModel
import Mathlib.Data.Nat.Sqrt

/-!
# Model of newforms.cc, homspace.cc: eigenvalues and modular symbols from a dual eigenvector

`none` stands for an access outside a vector (`at` throws) or a division by zero.  Overflow of `long` is not modelled.  The
denominator `h1denom()` of the space is an argument.
-/

namespace Eclib.Newf

open Hom Svec

/-! ### projected coordinates -/

/-- `nfproj_coords_from_index` (homspace.cc:445-451); also one component of `update` (newforms.cc:1863-1868) and of
`add_proj_coords_cd` (homspace.cc:478-483) -/
def nfIndex (H : Space) (bas : List ℤ) (ind : ℤ) : Option ℤ :=
  (getAt H.ci ind).bind fun i =>
    if i > 0 then bas[i.toNat - 1]?
    else if i < 0 then (bas[(-i).toNat - 1]?).map fun x => -x
    else some 0

/-- `nfproj_coords_cd` (homspace.cc:485-488) -/
def nfCd (H : Space) (bas : List ℤ) (c d : ℤ) : Option ℤ := (H.S.index2 c d).bind (nfIndex H bas)

/-- `add_nfproj_coords_cd` for a list of pairs, from 0 (homspace.cc:490-493) -/
def nfSum (H : Space) (bas : List ℤ) (l : List (ℤ × ℤ)) : Option ℤ :=
  l.foldlM (fun a s => (nfCd H bas s.1 s.2).map fun x => a + x) 0

/-- `nfproj_coords(nn,dd,bas)` (homspace.cc:544-549, 575-585) -/
def nfRat (H : Space) (bas : List ℤ) (nn dd : ℤ) : Option ℤ := nfSum H bas ((0, 1) :: cf 0 1 nn dd)

/-- `content(vec)` (vec.cc:193-199) -/
def content (v : List ℤ) : ℤ := if v = [] then 1 else v.foldl (fun x y => Int.gcd x y) 0

/-- `find_coords_plus_minus` for one of the signs (newforms.cc:382-406): `coordsplus` and `contplus` -/
def findCoords (t : T) (q : ℤ) (H : Space) (b : List ℤ) : Option (List ℤ × ℤ) :=
  (H.vecs.mapM fun w => dotVecModP t w b q).map fun c =>
    let g := content c
    (if g > 1 then c.map fun x => x.tdiv g else c, g)

/-! ### a_p -/

/-- the data of a newform used by `apvec`: `coordsplus`, `contplus` (or `coordsminus`, `contminus`), `j0`, `fac`, `aqlist` -/
structure NF where
  coords : List ℤ
  cont : ℤ
  j0 : ℕ
  fac : ℤ
  aq : List ℤ

/-- `while(b!=0) {...}` (newforms.cc:1926-1934): the pairs `(u1,u2)` after each pass -/
def apLoop (u1 u2 a b : ℤ) : List (ℤ × ℤ) :=
  if _ : b = 0 then []
  else
    let c := Arith.mod a b
    let q := (a - c).tdiv b
    let u3 := if q = 1 then u2 - u1 else q * u2 - u1
    (u2, u3) :: apLoop u2 u3 (-b) c
termination_by b.natAbs
decreasing_by exact natAbs_mod_lt a (by assumption)

/-- all pairs whose symbols are added for the symbol `(u:v)` (newforms.cc:1909-1936) -/
def apPairs (p u v : ℤ) : List (ℤ × ℤ) :=
  [(u, p * v), (p * u, v)] ++ [false, true].flatMap fun sg => (List.range ((p - 1) / 2).toNat).flatMap fun k =>
    let b : ℤ := if sg then -(k + 1 : ℕ) else (k + 1 : ℕ)
    (u * p, v - u * b) :: apLoop (u * p) (v - u * b) (-p) b

/-- the component of `images[j0]` for one form (newforms.cc:1902-1938); the code computes the vectors of all components for each `j`
in `jlist` -/
def image (H : Space) (p : ℤ) (f : NF) : Option ℤ :=
  if f.j0 = 0 then none
  else (H.free[f.j0 - 1]?).bind fun i => (H.S.symbol i).bind fun s => nfSum H f.coords (apPairs p s.1 s.2)

/-- `ap = images/fac; ap *= cont; ap /= h1denom()` (newforms.cc:1946-1948) -/
def recover (denom img : ℤ) (f : NF) : Option ℤ := if f.fac = 0 ∨ denom = 0 then none else some ((img.tdiv f.fac * f.cont).tdiv denom)

/-- the last loop of `apvec` with its `break` (newforms.cc:1941-1958) -/
def recoverAll (denom maxap : ℤ) : List (NF × ℤ) → Option (List ℤ)
  | [] => some []
  | (f, img) :: l => (recover denom img f).bind fun ap =>
      if ap > maxap ∨ -ap > maxap then some (ap :: l.map fun _ => 0) else (recoverAll denom maxap l).map fun r => ap :: r

/-- `apvec(p)` (newforms.cc:1870-1960); `ps` is `plist`.  `(long)(2*sqrt((double)p))` is replaced by the integer part of the exact
root. -/
def apvec (H : Space) (denom : ℤ) (ps : List ℤ) (p : ℤ) (fs : List NF) : Option (List ℤ) :=
  if H.S.N.tmod p = 0 then
    if H.S.N.tmod (p * p) = 0 then some (fs.map fun _ => 0)
    else fs.mapM fun f => (f.aq[ps.idxOf p]?).map fun x => -x
  else (fs.mapM (image H p)).bind fun imgs => recoverAll denom (Nat.sqrt (4 * p.toNat)) (fs.zip imgs)

/-! ### find_jlist -/

/-- `v[j]`, from 1 -/
def at1 (v : List ℤ) (j : ℕ) : Option ℤ := if j = 0 then none else v[j - 1]?

/-- the inner loop: `v[j]!=0` for all vectors, stopping at the first zero (newforms.cc:966-970) -/
def allNonzero (j : ℕ) : List (List ℤ) → Option Bool
  | [] => some true
  | v :: l => (at1 v j).bind fun x => if x ≠ 0 then allNonzero j l else some false

/-- the first `j` from `j` on, at most `j + n - 1`, with all entries non-zero (newforms.cc:963-972) -/
def commonJ (vs : List (List ℤ)) : ℕ → ℕ → Option (Option ℕ)
  | 0, _ => some none
  | n + 1, j => (allNonzero j vs).bind fun b => if b then some (some j) else commonJ vs n (j + 1)

/-- `j=1; while(bas[j]==0) j++;` (newforms.cc:998) on the rest of the vector -/
def firstJ : List ℤ → ℕ → Option ℕ
  | [], _ => none
  | x :: l, j => if x = 0 then firstJ l (j + 1) else some j

/-- `find_jlist` (newforms.cc:960-1010): `j0` and `fac` of each form; the vectors `bplus`, `bminus` of each form are given.  When no
common `j` is found the vector `bplus` is used whatever the sign. -/
def findJlist (sign : ℤ) (dim : ℕ) (fs : List (List ℤ × List ℤ)) : Option (List (ℕ × ℤ)) :=
  (commonJ (fs.map fun f => if sign = -1 then f.2 else f.1) dim 1).bind fun r =>
    match r with
    | some j => fs.mapM fun f => (at1 (if sign = -1 then f.2 else f.1) j).map fun x => (j, x)
    | none => fs.mapM fun f => (firstJ f.1 1).bind fun j => (at1 f.1 j).map fun x => (j, x)

/-! ### the ratio L/P and the modular symbols -/

/-- `maninvector(p)` for a space which is not cuspidal (homspace.cc:1184-1205), as a sparse vector -/
def maninvector (H : Space) (p : ℤ) : Option SV :=
  (H.coordsRat 0 p).bind fun v =>
    if H.pf = -1 then some v
    else if p = 2 then H.addRat v 1 2
    else
      let is := (List.range ((p - 1) / 2).toNat).map fun (k : ℕ) => ((k + 1 : ℕ) : ℤ)
      (is.foldlM (fun v i => H.addRat v i p) v).bind fun v =>
        if H.pf ≠ 0 then some (Svec.imul v 2) else is.foldlM (fun v i => H.addRat v (-i) p) v

/-- `find_bsd_ratio` (newforms.cc:335-380) for `sign` not -1: `coordsplus` with the new sign and `loverp`; the argument `pdot` is the
product of `mvp` and `bplus`.  `none` when `dp0` is not divisible by `denomplus` (the code prints an error and goes on) or `np0` is 0. -/
def findBsd (coords : List ℤ) (pdot denomplus p0 ap0 : ℤ) : Option (List ℤ × ℚ) :=
  let coords' := if pdot > 0 then coords.map fun x => x * -1 else coords
  let dp0 := |if pdot > 0 then pdot * -1 else pdot|
  let np0 := 1 + p0 - ap0
  if np0 = 0 then none
  else if dp0 ≠ 0 ∧ denomplus > 1 then
    if dp0.tmod denomplus = 0 then some (coords', ((dp0.tdiv denomplus : ℤ) : ℚ) / (np0 : ℤ)) else none
  else some (coords', (dp0 : ℚ) / (np0 : ℤ))

/-- `plus_modular_symbol(r,i,base_at_infinity)` (newforms.cc:2021-2030) -/
def plusSymbol (H : Space) (coords : List ℤ) (cusp opt lp : ℚ) (nn dd : ℤ) (base : Bool) : Option ℚ :=
  (nfRat H coords nn dd).map fun (v : ℤ) => ((v : ℚ) / cusp + if base then lp else 0) * opt

/-- `minus_modular_symbol(r,i,base_at_infinity)` (newforms.cc:2032-2039) -/
def minusSymbol (H : Space) (coords : List ℤ) (cusp opt : ℚ) (nn dd : ℤ) (_base : Bool) : Option ℚ :=
  (nfRat H coords nn dd).map fun (v : ℤ) => (v : ℚ) / cusp * opt

end Eclib.Newf
