import Verif.Hom.SymModel
import Verif.Symb.CuspModel

/-!
# Model of homspace.cc: the boundary map and operators on the cuspidal subspace
-/

namespace Eclib.Hom

open Ratl (R)
open Svec (T SV)
open Smat (SM)
open Elim (SSub)

/-- `if (plusflag==-1) k = cusps.index_1(c); else k = cusps.index(c);` (homspace.cc:312-315, 336-339) -/
def cuspIdx (M : Symb.Moddata) (pf : ℤ) (L : List R) (c : R) : Option (List R × ℤ) :=
  if pf = -1 then Symb.cuspIndex1 M L c else Symb.cuspIndex M pf L c

/-- the cusps in the order of the loops: for each generator first `beta`, then `alpha` (homspace.cc:306-311) -/
def bdryCusps (ms : List (R × R)) : List R := ms.flatMap fun m => [m.2, m.1]

/-- `deltamat(k,i) += x` for `k` from 1 and `i` from 0; an access outside the matrix is an error exit -/
def entryAdd (D : List (List ℤ)) (k i : ℕ) (x : ℤ) : Option (List (List ℤ)) :=
  if k = 0 then none
  else (D[k - 1]?).bind fun row => (row[i]?).map fun y => D.set (k - 1) (row.set i (y + x))

/-- `if (k>0) deltamat(k,i+1) += j; if (k<0) deltamat(-k,i+1) -= j;` (homspace.cc:340-343) -/
def deltaAdd (D : List (List ℤ)) (k : ℤ) (i : ℕ) (j : ℤ) : Option (List (List ℤ)) :=
  if k > 0 then entryAdd D k.toNat i j
  else if k < 0 then entryAdd D (-k).toNat i (-j)
  else some D

/-- the body of the second loop over the generators (homspace.cc:330-345); the state is the list of cusps and the
matrix -/
def deltaStep (M : Symb.Moddata) (pf : ℤ) (st : List R × List (List ℤ)) (x : (R × R) × ℕ) :
    Option (List R × List (List ℤ)) :=
  (cuspIdx M pf st.1 x.1.2).bind fun r1 => (deltaAdd st.2 r1.2 x.2 1).bind fun D1 =>
  (cuspIdx M pf r1.1 x.1.1).bind fun r2 => (deltaAdd D1 r2.2 x.2 (-1)).map fun D2 => (r2.1, D2)

/-- `deltamat` (homspace.cc:304-345): the first loop makes the list of cusps, the second the matrix -/
def Space.delta (H : Space) : Option Mat.M :=
  H.freemods.bind fun ms =>
  (Symb.cuspRun (cuspIdx H.S.toModdata H.pf) [] (bdryCusps ms)).bind fun r =>
  (ms.zipIdx.foldlM (deltaStep H.S.toModdata H.pf) (r.1, List.replicate r.1.length (List.replicate H.rk 0))).map fun st =>
    ⟨H.rk, st.2⟩

/-- `kern=kernel(smat(deltamat), MODULUS)` (homspace.cc:355-356) -/
def Space.kern (X : Marith.XGcd) (t : T) (p : ℤ) (sparse : Elim.St → Bool) (rref : Mat.M → Mat.Ech) (fuel : ℕ) (H : Space) :
    Option SSub :=
  H.delta.bind fun D => (Smat.ofMat D).bind (Elim.skernel X t p sparse rref fuel)

/-- `! trivial(kern.bas().row(i+1).as_vec())` (homspace.cc:382), `i` from 0 -/
def needed (kern : SSub) (i : ℕ) : Option Bool :=
  (Smat.row kern.basis (i + 1)).bind fun v => (Svec.asVec v).map fun l => l.any (· ≠ 0)

/-- the rows of the matrix in `s_calcop` for a cuspidal space: only for the generators needed (homspace.cc:719-727) -/
def Space.neededRows (H : Space) (kern : SSub) (mlist : List M22) : Option SM :=
  H.freemods.bind fun ms => ms.zipIdx.foldlM (fun m x => (needed kern x.2).bind fun b =>
    if b then (H.applyop mlist x.1).bind fun v => Smat.setrow m (x.2 + 1) v else some m) (Smat.new H.rk H.rk)

/-- `s_calcop` for a cuspidal space without `dual` (homspace.cc:719-735): `restrict_mat(transpose(m),kern)` -/
def Space.calcopCusp (H : Space) (t : T) (kern : SSub) (mlist : List M22) : Option SM :=
  (H.neededRows kern mlist).bind fun m => (Smat.transpose m).bind fun mt => Elim.srestrict t mt kern

/-- `s_heckeop(p, 0, display)` for a cuspidal space (homspace.cc:754-759) -/
def Space.heckeopCusp (H : Space) (t : T) (kern : SSub) (p : ℤ) : Option SM := (hecke p H.S.N).bind (H.calcopCusp t kern)

/-- `s_calcop_restricted(opname,p,mlist,s,dual)` with `dual` (homspace.cc:629-651): the images of the generators
with the indices `pivots(s)`, multiplied by the basis modulo `p` -/
def Space.calcopRestricted (H : Space) (t : T) (p : ℤ) (mlist : List M22) (s : SSub) : Option SM :=
  H.freemods.bind fun ms =>
  (s.pivots.zipIdx.foldlM (fun m x => if x.1 = 0 then none else (ms[x.1 - 1]?).bind fun mm =>
    (H.applyop mlist mm).bind fun v => Smat.setrow m (x.2 + 1) v) (Smat.new s.pivots.length H.rk)).bind fun m =>
  Smat.mulMod t m s.basis p

/-- `s_heckeop_restricted(p,s,dual)` with `dual` (homspace.cc:797-803) -/
def Space.heckeopRestricted (H : Space) (t : T) (m : ℤ) (p : ℤ) (s : SSub) : Option SM :=
  (hecke p H.S.N).bind fun l => H.calcopRestricted t m l s

end Eclib.Hom
