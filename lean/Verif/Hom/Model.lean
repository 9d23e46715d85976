import Verif.Symb.Model
import Verif.Elim.SubModel

/-!
# Model of class `homspace` (libsrc/eclib/homspace.h, libsrc/homspace.cc): relations and coordinates

`none` stands for an access outside a vector or another undefined behaviour.  Vectors of `int` are
lists of integers indexed from 0.
-/

namespace Eclib.Hom

open Symb (Symbdata)
open Svec (T SV)
open Smat (SM)

/-- `l[i]` -/
def getAt (l : List ℤ) (i : ℤ) : Option ℤ := if 0 ≤ i then l[i.toNat]? else none

/-- `l[i] = x` -/
def setAt (l : List ℤ) (i x : ℤ) : Option (List ℤ) :=
  if 0 ≤ i ∧ i < l.length then some (l.set i.toNat x) else none

/-- `for (k=..) l[rel[k]] = x` -/
def setAll (l : List ℤ) (rel : List ℤ) (x : ℤ) : Option (List ℤ) := rel.foldlM (fun l i => setAt l i x) l

/-! ### 2-term relations -/

/-- the state of the loops over the 2-term relations: `check`, `coordindex` and `gens[1..ngens]` -/
structure Two where
  check : List ℤ
  ci : List ℤ
  gens : List ℕ

/-- the body of the loop for `plusflag != 0` (homspace.cc:79-105) -/
def twoPM (S : Symbdata) (pf : ℤ) (st : Two) (j : ℕ) : Option Two :=
  (getAt st.check j).bind fun c =>
    if c = 0 then
      (if pf = -1 then S.rof j else S.rsof j).bind fun r1 =>
      (S.sof j).bind fun r2 =>
      (S.sof r1).bind fun r3 =>
      (setAll st.check [(j : ℤ), r1, r2, r3] 1).bind fun check =>
        if (j : ℤ) = r2 ∨ (j : ℤ) = r3 then
          (setAll st.ci [(j : ℤ), r1, r2, r3] 0).map fun ci => ⟨check, ci, st.gens⟩
        else
          let n : ℤ := st.gens.length + 1
          (setAll st.ci [(j : ℤ), r1] n).bind fun ci =>
          (setAll ci [r2, r3] (-n)).map fun ci => ⟨check, ci, st.gens ++ [j]⟩
    else some st

/-- the body of the loop for `plusflag == 0` (homspace.cc:106-120) -/
def twoZ (S : Symbdata) (st : Two) (j : ℕ) : Option Two :=
  (getAt st.check j).bind fun c =>
    if c = 0 then
      (S.sof j).bind fun r1 =>
      (setAll st.check [(j : ℤ), r1] 1).bind fun check =>
        if (j : ℤ) = r1 then
          (setAll st.ci [(j : ℤ), r1] 0).map fun ci => ⟨check, ci, st.gens⟩
        else
          let n : ℤ := st.gens.length + 1
          (setAt st.ci j n).bind fun ci =>
          (setAt ci r1 (-n)).map fun ci => ⟨check, ci, st.gens ++ [j]⟩
    else some st

/-- the 2-term relations (homspace.cc:66-120); `coordindex` and `check` start with zeros -/
def twoTerm (S : Symbdata) (pf : ℤ) : Option Two :=
  let n := S.nsymb.toNat
  let st : Two := ⟨List.replicate n 0, List.replicate n 0, []⟩
  (List.range n).foldlM (fun st j => if pf ≠ 0 then twoPM S pf st j else twoZ S st j) st

/-! ### 3-term relations -/

/-- the state of the loop over the 3-term relations -/
structure Three where
  check : List ℤ
  relmat : SM
  numrel : ℕ

/-- `check[ij] = 1; if (plusflag) check[rof(ij)] = 1` (homspace.cc:182-183) -/
def mark (S : Symbdata) (pf : ℤ) (check : List ℤ) (ij : ℤ) : Option (List ℤ) :=
  (setAt check ij 1).bind fun check =>
    if pf ≠ 0 then (S.rof ij).bind fun r => setAt check r 1 else some check

/-- `fix = coordindex[ij]; if(fix) newrel.add(abs(fix),(fix>0?1:-1))` (homspace.cc:184-186) -/
def addFix (ci : List ℤ) (newrel : SV) (ij : ℤ) : Option SV :=
  (getAt ci ij).map fun fix => if fix ≠ 0 then Svec.add newrel |fix| (if fix > 0 then 1 else -1) else newrel

/-- the relation is stored, if there is room for it (homspace.cc:198-207) -/
def store (t : T) (maxnumrel : ℕ) (relmat : SM) (numrel : ℕ) (newrel : SV) : Option SM :=
  (Svec.makePrimitive t newrel).bind fun r =>
    if numrel ≤ maxnumrel then Smat.setrow relmat numrel r.1 else some relmat

/-- the body of the loop over the 3-term relations (homspace.cc:166-219) -/
def three (t : T) (S : Symbdata) (pf : ℤ) (ci : List ℤ) (ngens maxnumrel : ℕ) (st : Three) (k : ℕ) : Option Three :=
  (getAt st.check k).bind fun c =>
    if c = 0 then
      (S.tof k).bind fun r1 =>
      (S.tof r1).bind fun r2 =>
      ([(k : ℤ), r1, r2].foldlM (mark S pf) st.check).bind fun check =>
      ([(k : ℤ), r1, r2].foldlM (addFix ci) (Svec.zero ngens)).bind fun newrel =>
        if Svec.size newrel ≠ 0 then
          (store t maxnumrel st.relmat (st.numrel + 1) newrel).map fun m => ⟨check, m, st.numrel + 1⟩
        else some ⟨check, st.relmat, st.numrel⟩
    else some st

/-- the 3-term relations (homspace.cc:144-219), `maxnumrel = ngens+10` -/
def threeTerm (t : T) (S : Symbdata) (pf : ℤ) (ci : List ℤ) (ngens : ℕ) : Option Three :=
  let n := S.nsymb.toNat
  (List.range n).foldlM (three t S pf ci ngens (ngens + 10)) ⟨List.replicate n 0, Smat.new (ngens + 10) ngens, 0⟩

/-- the message "Too many 3-term relations" is not printed (homspace.cc:205-206) -/
def Three.fits (ngens : ℕ) (st : Three) : Prop := st.numrel ≤ ngens + 10

/-! ### the space -/

/-- the members of class `homspace` used for coordinates (homspace.h:41-48) -/
structure Space where
  S : Symbdata
  pf : ℤ
  /-- `coordindex` -/
  ci : List ℤ
  /-- `coord_vecs[1..ngens]` -/
  vecs : List SV
  rk : ℕ
  /-- `freegens` -/
  free : List ℕ

/-- the constructor up to `freegens` (homspace.cc:66-290), with the modulus `p`.  Simplification: the
kernel modulo `p` is used as it is; in the code it is multiplied by a common denominator by `liftmat`
(homspace.cc:242). -/
def make (X : Marith.XGcd) (t : T) (p : ℤ) (sparse : Elim.St → Bool) (rref : Mat.M → Mat.Ech) (fuel : ℕ)
    (S : Symbdata) (pf : ℤ) : Option (Space × Three) :=
  (twoTerm S pf).bind fun two =>
  (threeTerm t S pf two.ci two.gens.length).bind fun th =>
  (Elim.skernel X t p sparse rref fuel th.relmat).bind fun sp =>
  ((List.range two.gens.length).mapM fun i => Smat.row sp.basis (i + 1)).bind fun vecs =>
  (sp.pivots.mapM fun i => if i = 0 then none else two.gens[i - 1]?).map fun free =>
    (⟨S, pf, two.ci, vecs, sp.basis.nco, free⟩, th)

/-- `coords_from_index` (homspace.cc:429-435) -/
def Space.fromIndex (H : Space) (ind : ℤ) : Option SV :=
  (getAt H.ci ind).bind fun i =>
    if i > 0 then H.vecs[i.toNat - 1]?
    else if i < 0 then (H.vecs[(-i).toNat - 1]?).map Svec.neg
    else some (Svec.zero H.rk)

/-- `coords_cd` (homspace.cc:463-466) -/
def Space.coordsCd (H : Space) (c d : ℤ) : Option SV := (H.S.index2 c d).bind H.fromIndex

/-- `add_coords_cd` (homspace.cc:468-471) -/
def Space.addCd (H : Space) (v : SV) (c d : ℤ) : Option SV := (H.coordsCd c d).map fun w => Svec.iadd v w

/-- the loop of `extend_coords` for one symbol (homspace.cc:402-415): `v*coord_vecs[j]` is the product of
a vector and a sparse vector -/
def Space.extend (H : Space) (v : List ℤ) : Option (List ℤ) :=
  H.ci.mapM fun j =>
    if j = 0 then some 0
    else if j > 0 then (H.vecs[j.toNat - 1]?).bind fun w => Svec.dotVec w v
    else (H.vecs[(-j).toNat - 1]?).bind fun w => (Svec.dotVec w v).map fun x => -x

/-- `contract_coords` (homspace.cc:418-427) -/
def Space.contract (H : Space) (v : List ℤ) : Option (List ℤ) := H.free.mapM fun i => v[i]?

end Eclib.Hom
