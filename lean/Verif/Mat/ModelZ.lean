import Verif.Mat.Model

/-!
# Model of the exact integer routines of libsrc/mat.cc and libsrc/sub.cc

Fraction-free elimination, rank, kernel, characteristic polynomial, subspaces.
-/

namespace Eclib.Mat

open Svec (T smod sxmod sxmodmul sdiv sgcd)

/-! ## echelon0 -/

/-- the search of the smallest non-zero absolute value in a column (mat.cc:672-683): the rows not yet
visited, the index of the next one, the current value `piv` and its row `rmin` -/
def findMinLoop (c : Nat) : List Row → Nat → Int → Nat → Int × Nat
  | [], _, piv, rmin => (piv, rmin)
  | row :: l, r2, piv, rmin =>
    if piv = 1 then (piv, rmin)
    else
      let x := |row.getD c 0|
      if 0 < x ∧ (x < piv ∨ piv = 0) then findMinLoop c l (r2 + 1) x r2
      else findMinLoop c l (r2 + 1) piv rmin

/-- the pivot search of `echelon0` (mat.cc:672-685): `none` if `piv==0` -/
def findMin (c : Nat) (rest : List Row) : Option Nat :=
  let r := findMinLoop c rest.tail 1 (|(rest.headD []).getD c 0|) 0
  if r.1 = 0 then none else some r.2

/-- the function `f` of `conservative_elim` (mat.cc:564-588) and of `elim` (606-628; there the case
`q==0`, `p!=1` is covered by the general formula) -/
def elimF (p q x y : Int) : Int :=
  if p = 1 then
    (if q = 1 then y - x else if q = -1 then y + x else y - q * x)
  else if q = -1 then p * y + x
  else if q = 1 then p * y - x
  else if q = 0 then p * y
  else p * y - q * x

/-- `conservative_elim(m,nc,r1,r2,pos)` (mat.cc:550-590): the new row `r2` -/
def consElim (pos : Nat) (r1 r2 : Row) : Row :=
  let p := r1.getD pos 0
  let q := r2.getD pos 0
  if p = 1 ∧ q = 0 then r2
  else r2.take pos ++ List.zipWith (elimF p q) (r1.drop pos) (r2.drop pos)

/-- `elim(m,nc,r1,r2,pos)` (mat.cc:596-631): the new row `r2` -/
def elimZ (pos : Nat) (r1 r2 : Row) : Row :=
  let p := r1.getD pos 0
  let q := r2.getD pos 0
  if p = 1 ∧ q = 0 then r2
  else List.zipWith (elimF p q) r1 r2

/-- division of a row by `lastpivot` (mat.cc:710-714) -/
def divLast (t : T) (last : Int) (row : Row) : Row :=
  if last > 1 then row.map (sdiv t · last) else row

/-- the treatment of a pivotal column in `echelon0` (mat.cc:689-720); the state is `lastpivot`, which
becomes `piv`, the absolute value of the pivot. -/
def ech0Act (t : T) (c : Nat) (piv : Row) (others : List Row) (last : Int) : Row × List Row × Int :=
  (piv, others.map (fun row => divLast t last (consElim c piv row)), |piv.getD c 0|)

/-- the content of a row (mat.cc:637-638) -/
def contentRow (t : T) (row : Row) : Int := row.foldl (sgcd t) 0

/-- `clear(row,col1,col2)` on one row (mat.cc:633-641) -/
def clearRow (t : T) (row : Row) : Row :=
  let g := contentRow t row
  if g > 1 then row.map (sdiv t · g) else row

/-- `lcm(a,b)`: arith.cc:344-349; marith.h:51-52 for bigint -/
def slcm : T → Int → Int → Int
  | .big, a, b => if a = 0 ∧ b = 0 then 0 else a * (b.fdiv (Int.gcd a b))
  | _, a, b => Arith.lcm a b

/-- `echelon0` (mat.cc:658-797): echelon matrix, columns and the denominator `d` -/
def echelon0 (t : T) (m : M) : Ech × Int :=
  let S := fwd findMin (ech0Act t) m.nc 0 ⟨[], m.rows, [], [], (1 : Int)⟩
  if S.npc.length > 0 then
    let rows := S.top.map (clearRow t)
    let rows := (backSub elimZ (rows.zip S.pc)).map (clearRow t)
    let d := |(rows.zip S.pc).foldl (fun d rc => slcm t d (rc.1.getD rc.2 0)) 1|
    let rows := List.zipWith (fun row c => row.map (sdiv t d (row.getD c 0) * ·)) rows S.pc
    (⟨⟨m.nc, rows⟩, S.pc, S.npc⟩, d)
  else (⟨⟨m.nc, S.pc.map (unitRow m.nc)⟩, S.pc, S.npc⟩, 1)

/-- `elimrows2(m,r1,r2,pos,last)` (mat.cc:393-402, 412-416, 141-146): the new row `r2` -/
def elimRows2 (t : T) (pos : Nat) (last : Int) (r1 r2 : Row) : Row :=
  let p := r1.getD pos 0
  let q := r2.getD pos 0
  let row := List.zipWith (fun x y => p * y - q * x) r1 r2
  if last = 0 ∨ last = 1 then row else row.map (sdiv t · last)

/-- the treatment of a pivotal column in `mat::rank` (mat.cc:819-827) -/
def rankAct (t : T) (c : Nat) (piv : Row) (others : List Row) (last : Int) : Row × List Row × Int :=
  (piv, others.map (elimRows2 t c last piv), |piv.getD c 0|)

/-- `mat::rank()` (mat.cc:798-828): the number of pivotal columns -/
def rank (t : T) (m : M) : Nat :=
  (fwd findMin (rankAct t) m.nc 0 ⟨[], m.rows, [], [], (1 : Int)⟩).pc.length

/-- `mat::nullity()` (mat.cc:830-833) -/
def nullity (t : T) (m : M) : Int := m.nc - rank t m

/-- `kernel(m)` with the default method (sub.cc:87-105) -/
def kernel (t : T) (m : M) : Sub :=
  let e := echelon0 t m
  ⟨e.2, e.1.npc, M.ofFn m.nc e.1.npc.length fun i j =>
    match e.1.pc.idxOf? i with
    | some r => -e.1.m.get r (e.1.npc.getD j 0)
    | none => if i = e.1.npc.getD j 0 then e.2 else 0⟩

/-! ## matrix operations -/

/-- `transpose` (mat.cc:480-488) -/
def transpose (m : M) : M := M.ofFn m.nc m.nr fun i j => m.get j i

/-- `image(m)` with the default method (sub.cc:107-114) -/
def image (t : T) (m : M) : Sub :=
  let e := echelon0 t (transpose m)
  ⟨e.2, e.1.pc, transpose e.1.m⟩

/-- `pimage` (sub.cc:194-200) -/
def pimage (X : Marith.XGcd) (t : T) (p : Int) (m : M) : Sub :=
  let e := echmodp X t p (transpose m)
  ⟨1, e.pc, transpose e.m⟩

/-- `m1*m2` (mat.cc:221-243); for incompatible sizes the result is a zero matrix -/
def mul (a b : M) : M :=
  if a.nc = b.nr then
    M.ofFn a.nr b.nc fun i j => (List.range a.nc).foldl (fun s k => a.get i k * b.get k j + s) 0
  else M.ofFn a.nr b.nc fun _ _ => 0

/-- `matmulmodp` (mat.cc:1505-1528) -/
def mulModP (t : T) (p : Int) (a b : M) : M :=
  if a.nc = b.nr then
    M.ofFn a.nr b.nc fun i j => (List.range a.nc).foldl
      (fun s k => sxmod t (sxmodmul t (a.get i k) (b.get k j) p + s) p) 0
  else M.ofFn a.nr b.nc fun _ _ => 0

/-- `scalar*m` (mat.cc:440-443) -/
def smul (c : Int) (a : M) : M := ⟨a.nc, a.rows.map (·.map (c * ·))⟩

/-- `scalar_matrix(n,a)` (mat.cc:473-478) -/
def scalarMat (n : Nat) (a : Int) : M := M.ofFn n n fun i j => if i = j then a else 0

/-- `m1-m2` (mat.cc:435-438) for matrices of the same size -/
def sub (a b : M) : M := ⟨a.nc, List.zipWith (List.zipWith (· - ·)) a.rows b.rows⟩

/-- `m1+m2` (mat.cc:430-433) for matrices of the same size -/
def add (a b : M) : M := ⟨a.nc, List.zipWith (List.zipWith (· + ·)) a.rows b.rows⟩

/-- `mat::trace()` (mat.cc:835-841): entries `i*(nco+1)` for `i < nro` -/
def trace (a : M) : Int := (List.range a.nr).foldl (fun s i => s + a.get i i) 0

/-- one round of the loop of `charpoly` (mat.cc:855-859) on `(b,t,clist)`; `clist` is kept with the
coefficient computed last in front -/
def charStep (t : T) (a : M) (S : M × Int × List Int) (i : Nat) : M × Int × List Int :=
  let b := mul a (sub S.1 (smul S.2.1 (scalarMat a.nr 1)))
  let tr := sdiv t (trace b) i
  (b, tr, -tr :: S.2.2)

/-- `mat::charpoly()` (mat.cc:845-865), for a square matrix: the coefficients `clist[0..n]`.  For `n = 0`
the code writes `clist[-1]` (undefined behaviour): `none`.  The final consistency test prints a message
only and is not modelled. -/
def charpoly (t : T) (a : M) : Option (List Int) :=
  if a.nr = 0 then none
  else
    let tr := trace a
    some (((List.range' 2 (a.nr - 1)).foldl (charStep t a) (a, tr, [-tr, 1])).2.2)

/-- `mat::determinant()` (mat.cc:867-871) -/
def determinant (t : T) (a : M) : Option Int :=
  (charpoly t a).map fun l => if a.nr % 2 = 1 then -l.headD 0 else l.headD 0

/-! ## subspaces -/

/-- `mat::content()` (mat.cc:148-152) -/
def content (t : T) (a : M) : Int := a.rows.flatten.foldl (sgcd t) 0

/-- `combine(s1,s2)` (sub.cc:39-52) -/
def combine (t : T) (s1 s2 : Sub) : Sub :=
  let d := s1.denom * s2.denom
  let b := mul s1.basis s2.basis
  let g := content t b
  let p := s2.pivots.map fun i => s1.pivots.getD i 0
  if g > 1 then ⟨sdiv t d g, p, ⟨b.nc, b.rows.map (·.map (sdiv t · g))⟩⟩ else ⟨d, p, b⟩

/-- `pcombine(s1,s2,pr)` (sub.cc:129-136) -/
def pcombine (t : T) (pr : Int) (s1 s2 : Sub) : Sub :=
  ⟨s1.denom * s2.denom, s2.pivots.map fun i => s1.pivots.getD i 0, mulModP t pr s1.basis s2.basis⟩

/-- `rowsubmat(m,v)` (mat.cc:491-499) -/
def rowsubmat (m : M) (v : List Nat) : M := ⟨m.nc, v.map fun i => m.rows.getD i []⟩

/-- `restrict_mat(M,S,0)` (sub.cc:72-86); `dim(S)` is the number of columns of the basis
(eclib/sub.h:82) -/
def restrictMat (m : M) (s : Sub) : M :=
  if s.basis.nc = m.nr then m else mul (rowsubmat m s.pivots) s.basis

/-- `prestrict(M,S,pr,0)` (sub.cc:138-150) -/
def prestrict (t : T) (pr : Int) (m : M) (s : Sub) : M :=
  if s.basis.nc = m.nr then m else mulModP t pr (rowsubmat m s.pivots) s.basis

/-- `addscalar(m,c)` (mat.cc:888-891) -/
def addscalar (m : M) (c : Int) : M := add m (scalarMat m.nr c)

/-- `eigenspace(m,lambda)` (sub.cc:116-120) -/
def eigenspace (t : T) (m : M) (lambda : Int) : Sub := kernel t (addscalar m (-lambda))

/-- `subeigenspace(m,l,s)` (sub.cc:122-127) -/
def subeigenspace (t : T) (m : M) (l : Int) (s : Sub) : Sub :=
  combine t s (eigenspace t (restrictMat m s) (l * s.denom))

/-- `peigenspace(m,lambda,pr)` (sub.cc:202-206) -/
def peigenspace (X : Marith.XGcd) (t : T) (pr : Int) (m : M) (lambda : Int) : Sub :=
  pkernel X t pr (addscalar m (-lambda))

/-- `psubeigenspace(m,l,s,pr)` (sub.cc:208-213) -/
def psubeigenspace (X : Marith.XGcd) (t : T) (pr : Int) (m : M) (l : Int) (s : Sub) : Sub :=
  pcombine t pr s (peigenspace X t pr (prestrict t pr m s) (l * s.denom))

end Eclib.Mat
