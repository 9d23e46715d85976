import Verif.Svec.Model

/-!
# Model of libsrc/mat.cc, libsrc/sub.cc (classes mat, subspace)

A matrix is the list of its rows together with the number of columns.  The code stores the entries
in one array in row-major order; the model has one list per row.  All indices are counted from 0
(the code counts rows and columns from 1 outside `echelon0`).  Scalars are unbounded integers; the
type `T` selects the scalar functions (`Verif.Svec.Model`).
-/

namespace Eclib.Mat

open Svec (T smod sxmod sxmodmul sdiv sgcd)

/-- a row of a matrix -/
abbrev Row := List Int

/-- class `mat` (eclib/mat.h): number of columns and rows -/
structure M where
  nc : Nat
  rows : List Row
deriving DecidableEq, Repr

/-- number of rows -/
def M.nr (m : M) : Nat := m.rows.length

/-- `m(i,j)` (mat.cc:34-48), indices from 0; the code throws for indices out of range -/
def M.get (m : M) (i j : Nat) : Int := (m.rows.getD i []).getD j 0

/-- the matrix with given entries -/
def M.ofFn (nr nc : Nat) (f : Nat → Nat → Int) : M :=
  ⟨nc, (List.range nr).map fun i => (List.range nc).map fun j => f i j⟩

/-- class `subspace` (eclib/sub.h:29-74) -/
structure Sub where
  denom : Int
  pivots : List Nat
  basis : M
deriving DecidableEq, Repr

/-- `invmod(a,p)`: arith.cc:363-372 for `int` and `long`, marith.cc:949-958 for `bigint` -/
def sinvmod (X : Marith.XGcd) : T → Int → Int → Int
  | .big, a, p => Marith.invmod X a p
  | _, a, p => Arith.invmod a p

/-! ## the column loop of the elimination functions -/

/-- The state of forward elimination: `top` holds the rows above `r`, `rest` the rows from `r` on,
`pc` and `npc` the pivotal and non-pivotal columns found so far; `s` is the remaining state. -/
structure FS (σ : Type) where
  top : List Row
  rest : List Row
  pc : List Nat
  npc : List Nat
  s : σ

/-- `swaprows(r,rmin)` on the rows from `r` on, where `rmin = r+i`: the new row `r` and the others -/
def swapRows (rest : List Row) (i : Nat) : Row × List Row :=
  (rest.getD i [], if i = 0 then rest.tail else rest.tail.set (i - 1) (rest.headD []))

/-- The loop `for (c=1; (c<=nc)&&(r<=nr); c++)` with the completion of `npcols` after it, common to
`echmodp` (mat.cc:1088-1123), `echmodp_uptri` (1164-1196), `echelonp` (980-1005) and `echelon0`
(652-710).  `k` is the number of columns left, `c` the current column; `find` searches the pivot,
`act` treats the pivot row and eliminates in the rows below. -/
def fwd {σ : Type} (find : Nat → List Row → Option Nat)
    (act : Nat → Row → List Row → σ → Row × List Row × σ) : Nat → Nat → FS σ → FS σ
  | 0, _, S => S
  | k + 1, c, S =>
    if S.rest = [] then { S with npc := S.npc ++ List.range' c (k + 1) }
    else match find c S.rest with
      | none => fwd find act k (c + 1) { S with npc := S.npc ++ [c] }
      | some i =>
        let sw := swapRows S.rest i
        let r := act c sw.1 sw.2 S.s
        fwd find act k (c + 1) ⟨S.top ++ [r.1], r.2.1, S.pc ++ [c], S.npc, r.2.2⟩

/-! ## modulo p -/

/-- the search for a non-zero entry (mat.cc:1090-1102) -/
def findNonzero (c : Nat) (rest : List Row) : Option Nat :=
  rest.findIdx? fun row => row.getD c 0 ≠ 0

/-- the function `f` of `elimp1` (mat.cc:950-957) -/
def elimp1F (t : T) (p q x y : Int) : Int :=
  if q = -1 then smod t (y + x) p
  else if q = 1 then smod t (y - x) p
  else smod t (y - sxmodmul t q x p) p

/-- `elimp1(m,r1,r2,pos,pr)` (mat.cc:939-958): the new row `r2` -/
def elimp1 (t : T) (p : Int) (pos : Nat) (r1 r2 : Row) : Row :=
  let q := smod t (r2.getD pos 0) p
  if q = 0 then r2
  else r2.take pos ++ List.zipWith (elimp1F t p q) (r1.drop pos) (r2.drop pos)

/-- the function `f` of `elimp` (mat.cc:911-935) -/
def elimpF (t : T) (pr p q x y : Int) : Int :=
  if p = 1 then
    (if q = 1 then smod t (y - x) pr
     else if q = -1 then smod t (y + x) pr
     else smod t (y - sxmodmul t q x pr) pr)
  else if q = -1 then smod t (sxmodmul t p y pr + x) pr
  else if q = 1 then smod t (sxmodmul t p y pr - x) pr
  else smod t (sxmodmul t p y pr - sxmodmul t q x pr) pr

/-- `elimp(m,r1,r2,pos,pr)` (mat.cc:902-937): the new row `r2` -/
def elimp (t : T) (pr : Int) (pos : Nat) (r1 r2 : Row) : Row :=
  let p := smod t (r1.getD pos 0) pr
  let q := smod t (r2.getD pos 0) pr
  if q = 0 then r2
  else r2.take pos ++ List.zipWith (elimpF t pr p q) (r1.drop pos) (r2.drop pos)

/-- the treatment of a pivotal column in `echmodp` (mat.cc:1106-1119) -/
def echAct (X : Marith.XGcd) (t : T) (p : Int) (c : Nat) (piv : Row) (others : List Row) (_ : Unit) :
    Row × List Row × Unit :=
  let fac := sxmod t (sinvmod X t (piv.getD c 0) p) p
  let piv := piv.map fun x => smod t (sxmodmul t fac x p) p
  (piv, others.map (elimp1 t p c piv), ())

/-- the treatment of a pivotal column in `echmodp_uptri` (mat.cc:1182-1192) -/
def uptriAct (X : Marith.XGcd) (t : T) (p : Int) (c : Nat) (piv : Row) (others : List Row)
    (_ : Unit) : Row × List Row × Unit :=
  let fac := smod t (sinvmod X t (piv.getD c 0) p) p
  let piv := piv.map fun x => smod t (fac * x) p
  (piv, others.map (elimp1 t p c piv), ())

/-- the matrix reduced modulo `p` (mat.cc:1080-1082) -/
def reduceModP (t : T) (p : Int) (m : M) : M := ⟨m.nc, m.rows.map (·.map (smod t · p))⟩

/-- the loop of back substitution `for r1 for r2>r1: elimp(m,r2,r1,pcols[r2],pr)`
(mat.cc:1130-1132): the rows paired with their pivotal columns -/
def backSub (elim : Nat → Row → Row → Row) : List (Row × Nat) → List Row
  | [] => []
  | (row, _) :: l => l.foldl (fun r1 rc => elim rc.2 rc.1 r1) row :: backSub elim l

/-- scaling of a row by the inverse of the pivot (mat.cc:1135-1139) -/
def normRow (X : Marith.XGcd) (t : T) (p : Int) (row : Row) (c : Nat) : Row :=
  let fac := smod t (sinvmod X t (row.getD c 0) p) p
  row.map fun x => smod t (sxmodmul t fac x p) p

/-- `m(i,j)=(j==pcols[i])` (mat.cc:1144-1147) -/
def unitRow (nc c : Nat) : Row := (List.range nc).map fun j => if j = c then 1 else 0

/-- the result of an echelon function: the matrix, pivotal and non-pivotal columns; rank and nullity are
the lengths of the two lists -/
structure Ech where
  m : M
  pc : List Nat
  npc : List Nat
deriving DecidableEq, Repr

/-- `echmodp` (mat.cc:1074-1151) -/
def echmodp (X : Marith.XGcd) (t : T) (p : Int) (m : M) : Ech :=
  let S := fwd findNonzero (echAct X t p) m.nc 0 ⟨[], (reduceModP t p m).rows, [], [], ()⟩
  let rows :=
    if S.npc.length > 0 then
      List.zipWith (normRow X t p) (backSub (elimp t p) (S.top.zip S.pc)) S.pc
    else S.pc.map (unitRow m.nc)
  ⟨⟨m.nc, rows⟩, S.pc, S.npc⟩

/-- `echmodp_uptri` (mat.cc:1153-1202) -/
def echmodpUptri (X : Marith.XGcd) (t : T) (p : Int) (m : M) : Ech :=
  let S := fwd findNonzero (uptriAct X t p) m.nc 0 ⟨[], (reduceModP t p m).rows, [], [], ()⟩
  ⟨⟨m.nc, S.top⟩, S.pc, S.npc⟩

/-- `oldpkernel` (sub.cc:147-163) -/
def oldpkernel (X : Marith.XGcd) (t : T) (p : Int) (m : M) : Sub :=
  let e := echmodp X t p m
  ⟨1, e.npc, M.ofFn m.nc e.npc.length fun i j =>
    match e.pc.idxOf? i with
    | some r => smod t (-e.m.get r (e.npc.getD j 0)) p
    | none => if i = e.npc.getD j 0 then 1 else 0⟩

/-- the entries `basis(pcols[i],j)` for fixed `j`, computed for `i` from `rank` down to 1
(sub.cc:175-185) -/
def pkCol (t : T) (p : Int) (jj : Nat) : List (Row × Nat) → List Int
  | [] => []
  | (row, _) :: l =>
    let bs := pkCol t p jj l
    let temp := (l.zip bs).foldr
      (fun e temp => sxmod t (temp - sxmodmul t (row.getD e.1.2 0) e.2 p) p) (-row.getD jj 0)
    smod t temp p :: bs

/-- `pkernel` (sub.cc:166-188) -/
def pkernel (X : Marith.XGcd) (t : T) (p : Int) (m : M) : Sub :=
  let e := echmodpUptri X t p m
  ⟨1, e.npc, M.ofFn m.nc e.npc.length fun i j =>
    match e.pc.idxOf? i with
    | some r => (pkCol t p (e.npc.getD j 0) (e.m.rows.zip e.pc)).getD r 0
    | none => if i = e.npc.getD j 0 then 1 else 0⟩

/-- `modrat(n,m,a,b)` for the three scalar types: arith.cc:432-436, marith.cc:1137-1145 -/
def smodrat : T → Int → Int → Option (Int × Int × Bool)
  | .big, n, m => Marith.modratBig n m
  | _, n, m => Marith.modratLong n m

/-- the treatment of a pivotal column in `echelonp` (mat.cc:996-1002) -/
def echelonpAct (t : T) (p : Int) (c : Nat) (piv : Row) (others : List Row) (_ : Unit) :
    Row × List Row × Unit := (piv, others.map (elimp t p c piv), ())

/-- The first two stages of `echelonp` (mat.cc:965-1033).  In the loop of back substitution
`for (r2=r+1; r2<=rk; r2++)` (mat.cc:1016) the variable `r` is `rk+1` after the forward stage, so the
loop body is never executed. -/
def echelonpMod (X : Marith.XGcd) (t : T) (p : Int) (m : M) : Ech :=
  let S := fwd findNonzero (echelonpAct t p) m.nc 0 ⟨[], (reduceModP t p m).rows, [], [], ()⟩
  let rows :=
    if S.npc.length > 0 then
      List.zipWith (fun row c => row.map fun x => sxmodmul t (sxmod t (sinvmod X t (row.getD c 0) p) p) x p)
        S.top S.pc
    else S.pc.map (unitRow m.nc)
  ⟨⟨m.nc, rows⟩, S.pc, S.npc⟩

/-- `echelonp` (mat.cc:965-1070): matrix, pivotal columns, other columns, denominator; the third stage
is at mat.cc:1039-1070.  Simplification: failure of `modrat` to terminate is `none`; its return value
only triggers a message and skips the denominator. -/
def echelonp (X : Marith.XGcd) (t : T) (p : Int) (m : M) : Option (Ech × Int) :=
  let e := echelonpMod X t p m
  match e.m.rows.mapM (fun row => e.npc.mapM fun jj => smodrat t (row.getD jj 0) p) with
  | none => none
  | some lifts =>
    let dd := |lifts.flatten.foldl
      (fun dd x => if x.2.2 then sdiv t (dd * x.2.1) (sgcd t dd x.2.1) else dd) 1|
    some (⟨⟨m.nc, (lifts.zip e.pc).map fun lc => (List.range m.nc).map fun j =>
      match e.npc.idxOf? j with
      | some i => sdiv t (dd * ((lc.1.getD i (0, 1, false)).1)) ((lc.1.getD i (0, 1, false)).2.1)
      | none => if j = lc.2 then dd else 0⟩, e.pc, e.npc⟩, dd)

end Eclib.Mat
