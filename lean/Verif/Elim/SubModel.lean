import Verif.Elim.Model
import Verif.Smat.Model

/-!
# Model of class `ssubspace` (libsrc/eclib/smat_elim.h:126-156, libsrc/smat_elim.cc:1324-1395)

Sparse matrices are those of `Smat`: rows are arrays with unset cells.  `none` stands for a read of an
unset cell, an access outside an array or an error exit.
-/

namespace Eclib.Elim

open Svec (T SV)
open Smat (SM)

/-- class `ssubspace` (smat_elim.h:126-156).  `modulus` is not set by the constructor `ssubspace(int)`;
`pivots` counts from 1. -/
structure SSub where
  modulus : Option ℤ
  pivots : List ℕ
  basis : SM

/-- `ssubspace(n)` (smat_elim.cc:1324-1326) -/
def whole (n : ℕ) : Option SSub :=
  (Smat.scalarMatrix n 1).map fun b => ⟨none, (List.range n).map (· + 1), b⟩

/-- a row of an `smat` as a row of `smat_elim` -/
def toRow (l : List (ℤ × ℤ)) : Row := l.map fun e => (e.1.toNat, e.2)

/-- the constructor `smat_elim(sm,mod)` (smat_elim.h:110) copies the rows -/
def rowsOf (sm : SM) : Option (List Row) := (List.range sm.nro).mapM fun i => (sm.readRow i).map toRow

/-- the row of an `smat` with the given entries (smat_elim.cc:664-708).  Here the arrays have exactly the
size needed; the rows of the non-pivotal columns are those of the constructor in the code. -/
def ofRow (l : Row) : Option Smat.Row := Smat.Row.make l.length (l.map fun e => ((e.1 : ℤ), e.2))

/-- `kernel(sm,m)` (smat_elim.cc:1357-1362) -/
def skernel (X : Marith.XGcd) (t : T) (p : ℤ) (sparse : St → Bool) (rref : Mat.M → Mat.Ech) (fuel : ℕ) (sm : SM) :
    Option SSub :=
  (rowsOf sm).bind fun rows => (kernel X t p sparse rref fuel sm.nco rows).bind fun K =>
    (K.bas.mapM ofRow).map fun b => ⟨some p, K.npc, ⟨K.npc.length, b⟩⟩

/-- `s1.pivots[s2.pivots]` (vec.cc:101-108), indices from 1 -/
def pivIndex (p1 p2 : List ℕ) : Option (List ℕ) := p2.mapM fun i => if i = 0 then none else p1[i - 1]?

/-- `combine(s1,s2)` (smat_elim.cc:1346-1350) -/
def scombine (t : T) (s1 s2 : SSub) : Option SSub :=
  s1.modulus.bind fun m => (Smat.mulMod t s1.basis s2.basis m).bind fun b =>
    (pivIndex s1.pivots s2.pivots).map fun p => ⟨some m, p, b⟩

/-- `restrict_mat(m,s)` (smat_elim.cc:1352-1355) -/
def srestrict (t : T) (m : SM) (s : SSub) : Option SM :=
  s.modulus.bind fun p => (Smat.selectRows m s.pivots).bind fun r => Smat.mulMod t r s.basis p

/-- `eigenspace(sm,lambda,m)` (smat_elim.cc:1364-1368) -/
def seigenspace (X : Marith.XGcd) (t : T) (p : ℤ) (sparse : St → Bool) (rref : Mat.M → Mat.Ech) (fuel : ℕ)
    (sm : SM) (lambda : ℤ) : Option SSub :=
  (Smat.subModP t sm lambda p).bind (skernel X t p sparse rref fuel)

/-- `subeigenspace(sm,l,s,m)` (smat_elim.cc:1370-1373) -/
def ssubeigenspace (X : Marith.XGcd) (t : T) (p : ℤ) (sparse : St → Bool) (rref : Mat.M → Mat.Ech) (fuel : ℕ)
    (sm : SM) (l : ℤ) (s : SSub) : Option SSub :=
  (srestrict t sm s).bind fun r => (seigenspace X t p sparse rref fuel r l).bind (scombine t s)

/-- `svec::first_index` (svec.h:80): the least positive index stored; `none` if there is none -/
def firstIndex (v : SV) : Option ℤ := (v.entries.find? fun e => 0 < e.1).map (·.1)

/-- `make1d(bas,piv,m)` (smat_elim.cc:1375-1386): the subspace and `piv` -/
def smake1d (p : ℤ) (bas : List ℤ) : Option (SSub × ℤ) :=
  let sbas := Svec.ofVec bas
  (Smat.setrow (Smat.new 1 bas.length) 1 sbas).bind fun tb =>
    (firstIndex sbas).bind fun i => (Smat.transpose tb).map fun b => (⟨some p, [i.toNat], b⟩, Svec.elem sbas i)

end Eclib.Elim
