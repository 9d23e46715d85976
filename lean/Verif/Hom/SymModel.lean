import Verif.Hom.Model
import Verif.Small.RatModel
import Verif.Arith.Props

/-!
# Model of homspace.cc, symb.cc: modular symbols, Hecke operators and Heilbronn matrices

Overflow of `long` is not modelled.
-/

namespace Eclib.Hom

open Ratl (R)
open Symb (Symbdata)
open Svec (T SV)
open Smat (SM)

/-! ### continued fractions -/

theorem natAbs_mod_lt (a : ℤ) {b : ℤ} (hb : b ≠ 0) : (Arith.mod a b).natAbs < b.natAbs := by
  obtain ⟨-, h1, h2⟩ := Arith.Props.C04_mod a b hb
  rw [Int.abs_eq_natAbs] at h1 h2
  omega

/-- The loop `while (b) {f=b; b=mod(a,b); q=(a-b)/f; a=-f; e=d; d=-c; c=q*c+e; ...}`, which occurs in
`add_coords(svec&, const modsym&)`, `add_coords(svec&, long, long)`, `add_proj_coords` and
`add_nfproj_coords` (homspace.cc:527-533, 554-559, 566-571, 578-583): the pairs `(c,d)` after each pass. -/
def cf (c d a b : ℤ) : List (ℤ × ℤ) :=
  if _ : b = 0 then []
  else
    let b' := Arith.mod a b
    let q := (a - b').tdiv b
    (q * c + d, -c) :: cf (q * c + d) (-c) (-b) b'
termination_by b.natAbs
decreasing_by exact natAbs_mod_lt a (by assumption)

/-- `add_coords_cd` for a list of pairs -/
def Space.addList (H : Space) (v : SV) (l : List (ℤ × ℤ)) : Option SV := l.foldlM (fun v s => H.addCd v s.1 s.2) v

/-- `add_coords(svec& v, long nn, long dd)` (homspace.cc:551-561) -/
def Space.addRat (H : Space) (v : SV) (nn dd : ℤ) : Option SV := H.addList v ((0, 1) :: cf 0 1 nn dd)

/-- `coords(long nn, long dd)` (homspace.cc:495-500) -/
def Space.coordsRat (H : Space) (nn dd : ℤ) : Option SV := H.addRat (Svec.zero H.rk) nn dd

/-- the pairs added by `add_coords(svec&, const modsym&)` (homspace.cc:511-534): for determinant 1 only one
pair, otherwise `(-D,C)` after each pass of the loop -/
def symList (al be : R) : List (ℤ × ℤ) :=
  let a := be.n
  let b := al.n
  let c := be.d
  let d := al.d
  let de := a * d - b * c
  let b' := if de < 0 then -b else b
  let d' := if de < 0 then -d else d
  let de' := if de < 0 then -de else de
  if de' = 1 then [(c, d')]
  else
    let uv := Arith.bezout a c
    (cf c uv.2.1 (b' * uv.2.1 + uv.2.2 * d') de').map fun s => (-s.2, s.1)

/-- `add_coords(svec& vv, const modsym& m)` (homspace.cc:509-534) -/
def Space.addSym (H : Space) (v : SV) (m : R × R) : Option SV := H.addList v (symList m.1 m.2)

/-- `coords(const modsym& m)` (homspace.cc:502-507) -/
def Space.coordsSym (H : Space) (m : R × R) : Option SV := H.addSym (Svec.zero H.rk) m

/-- the constructor of `modsym` from a symbol (symb.cc:61-68) -/
def modsym (s : ℤ × ℤ) : R × R :=
  let r := Arith.bezout s.1 s.2
  (Ratl.mk false (-r.2.1) (s.2.tdiv r.1), Ratl.mk false r.2.2 (s.1.tdiv r.1))

/-- `freemods` (homspace.cc:381) -/
def Space.freemods (H : Space) : Option (List (R × R)) := H.free.mapM fun (i : ℕ) => (H.S.symbol (i : ℤ)).map modsym

/-! ### matrices -/

/-- class `mat22` (homspace.h:183-186) -/
structure M22 where
  a : ℤ
  b : ℤ
  c : ℤ
  d : ℤ
deriving DecidableEq, Repr

/-- the action on rationals (homspace.h:196-200) -/
def M22.act (M : M22) (q : R) : R := Ratl.mk false (M.a * q.n + M.b * q.d) (M.c * q.n + M.d * q.d)

/-- the action on modular symbols (homspace.h:201-204) -/
def M22.actSym (M : M22) (m : R × R) : R × R := (M.act m.1, M.act m.2)

/-- the action on M-symbols from the right, followed by `coords_cd` (homspace.h:205-209) -/
def M22.actM (M : M22) (H : Space) (s : ℤ × ℤ) : Option SV :=
  let u := Symb.reduce H.S.N s.1
  let v := Symb.reduce H.S.N s.2
  H.coordsCd (M.a * u + M.c * v) (M.b * u + M.d * v)

/-- `for (u=1, v=n; v%p==0; v/=p, u*=p) ;` (homspace.cc:51) -/
def wSplit (p : ℤ) : ℕ → ℤ → ℤ → Option (ℤ × ℤ)
  | 0, _, _ => none
  | fuel + 1, u, v => if v.tmod p = 0 then wSplit p fuel (u * p) (v.tdiv p) else some (u, v)

/-- `matop(long p, long n)` (homspace.cc:42-64); `p>>1` is floor division.  For `p <= 0` the division or
the resize fails. -/
def hecke (p n : ℤ) : Option (List M22) :=
  if p = n then some [⟨0, -1, n, 0⟩]
  else if p ≤ 0 then none
  else if n.tmod p = 0 then
    (wSplit p (n.natAbs + 1) 1 n).map fun uv =>
      let r := Arith.bezout uv.1 uv.2
      [⟨uv.1 * r.2.1, -r.2.2, n, uv.1⟩]
  else
    some (((List.range p.toNat).map fun j => ⟨1, j - p / 2, 0, p⟩) ++ [⟨p, 0, 0, 1⟩])

/-- `applyop(const matop& mlist, const modsym& m)` (homspace.cc:594-599): the loop runs from the last
matrix to the first -/
def Space.applyop (H : Space) (mlist : List M22) (m : R × R) : Option SV :=
  mlist.reverse.foldlM (fun ans M => (H.coordsSym (M.actSym m)).map fun v => Svec.iadd ans v) (Svec.zero H.rk)

/-- the rows of the matrix in `s_calcop` without the flags `cuspidal` and `dual` (homspace.cc:719-727) -/
def Space.calcop (H : Space) (mlist : List M22) : Option (List SV) := H.freemods.bind fun ms => ms.mapM (H.applyop mlist)

/-- `s_heckeop(p, dual, display)` (homspace.cc:754-759), not transposed -/
def Space.heckeop (H : Space) (p : ℤ) : Option (List SV) := (hecke p H.S.N).bind H.calcop

/-- the columns of `conj` (homspace.cc:841-848) -/
def Space.conj (H : Space) : Option (List SV) := H.free.mapM fun (i : ℕ) => (H.S.symbol (i : ℤ)).bind fun s => H.coordsCd (-s.1) s.2

/-- the sum over a list of Heilbronn matrices (homspace.cc:813-815) -/
def Space.heilSum (H : Space) (hmats : List M22) (s : ℤ × ℤ) : Option SV :=
  match hmats with
  | [] => none
  | M :: l => (M.actM H s).bind fun v => l.foldlM (fun ans M => (M.actM H s).map fun w => Svec.iadd ans w) v

/-- the columns of the matrix in `newheckeop` for `p` not dividing the level, with the list of Heilbronn
matrices given and without the flags `cuspidal` and `dual` (homspace.cc:805-817) -/
def Space.newhecke (H : Space) (hmats : List M22) : Option (List SV) :=
  H.free.mapM fun (i : ℕ) => (H.S.symbol (i : ℤ)).bind fun s => H.heilSum hmats s

/-- `while(b!=0) {c=mod(a,b); q=(a-c)/b; x3=q*x2-x1; y3=q*y2-y1; a=-b; b=c; x1=x2; x2=x3; ...}`
(homspace.cc:1707-1713): the matrices pushed -/
def heilLoop (x1 x2 y1 y2 a b : ℤ) : List M22 :=
  if _ : b = 0 then []
  else
    let c := Arith.mod a b
    let q := (a - c).tdiv b
    ⟨x2, q * x2 - x1, y2, q * y2 - y1⟩ :: heilLoop x2 (q * x2 - x1) y2 (q * y2 - y1) (-b) c
termination_by b.natAbs
decreasing_by exact natAbs_mod_lt a (by assumption)

/-- the default case of `matop(long p)` (homspace.cc:1696-1715) -/
def heilDefault (p : ℤ) : List M22 :=
  [⟨1, 0, 0, p⟩, ⟨p, 0, 0, 1⟩] ++
    [1, -1].flatMap fun sg => (List.range ((p - 1) / 2).toNat).flatMap fun k =>
      ⟨p, -sg * (k + 1 : ℕ), 0, 1⟩ :: heilLoop p (-sg * (k + 1 : ℕ)) 0 1 (-p) (sg * (k + 1 : ℕ))

end Eclib.Hom
