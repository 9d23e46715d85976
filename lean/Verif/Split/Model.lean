import Verif.Elim.SubModel
import Verif.Lift.Model

/-!
# Model of class `form_finder` (libsrc/xsplit.cc)

The build without threads, with `dual = 1` and `bigmats = 0` as in `newforms` (newforms.cc:892, 1590, 1779).  A node of the tree is the list of
the relative spaces of the node and its ancestors (the deepest first, none for the root) with the list of eigenvalues.  The matrices kept in a
node are computed again; this does not change them.  `none` stands for a read outside an array, a null pointer or an exception.
-/

namespace Eclib.Split

open Svec (T)
open Smat (SM)
open Elim (SSub)

/-- the members of `form_finder` and the virtual functions of `splitter_base` -/
structure Finder where
  X : Marith.XGcd
  t : T
  /-- `MODULUS` -/
  p : ℤ
  /-- the parts of the elimination that are parameters in `Elim` -/
  sparse : Elim.St → Bool
  rref : Mat.M → Mat.Ech
  fuel : ℕ
  /-- `s_opmat(0,1)` -/
  opmat0 : Option SM
  /-- `s_opmat_cols` -/
  opmatCols : ℤ → List ℕ → Option SM
  /-- `dimen` -/
  dimen : ℕ
  /-- `denom1` -/
  denom : ℤ
  plusflag : Bool
  maxdepth : ℕ
  mindepth : ℕ
  eigrange : ℕ → List ℤ
  /-- `dimoldpart` -/
  dimold : List ℤ → Option ℤ
  /-- `lift` (libsrc/xsplit.cc:354-371) -/
  lift : List ℤ → Option (List ℤ)

/-- `lift` (libsrc/xsplit.cc:354-371): the vector itself if it can not be lifted -/
def vlift (X : Marith.XGcd) (t : T) (p : ℤ) (v : List ℤ) : Option (List ℤ) :=
  (Lift.liftVec X t v p).map (fun (r : Bool × List ℤ) => if r.1 then r.2 else v)

/-- `targetdim` (libsrc/xsplit.cc:58-60) -/
def Finder.targetdim (F : Finder) : ℕ := if F.plusflag then 1 else 2

/-- the loop of `make_nested_submat` (libsrc/xsplit.cc:126-134): `jlist` and `b` -/
def nest (F : Finder) : List SSub → List ℕ → SM → Option (List ℕ × SM)
  | [], jlist, b => some (jlist, b)
  | s :: rest, jlist, b =>
    (Elim.pivIndex s.pivots jlist).bind (fun (j' : List ℕ) =>
      match rest with
      | [] => some (j', b)
      | s' :: _ => (Smat.mulMod F.t s'.basis b F.p).bind (fun (b' : SM) => nest F rest j' b'))

/-- `make_nested_submat(ip,data)` (libsrc/xsplit.cc:115-144); at the root `rel_space_` is a null pointer -/
def nestedSubmat (F : Finder) (ip : ℤ) (chain : List SSub) (subdim : ℕ) : Option SM :=
  match chain with
  | [] => none
  | s :: _ => (nest F chain ((List.range subdim).map (· + 1)) s.basis).bind (fun (r : List ℕ × SM) =>
      (F.opmatCols ip r.1).bind (fun (m : SM) => Smat.mulMod F.t m r.2 F.p))

/-- `make_submat` (libsrc/xsplit.cc:78-105) -/
def submat (F : Finder) (chain : List SSub) (subdim depth : ℕ) : Option SM :=
  if depth = 0 then F.opmat0 else nestedSubmat F depth chain subdim

/-- the relative eigenspace in `go_down` (libsrc/xsplit.cc:165, 185) -/
def goDown (F : Finder) (m : SM) (eig : ℤ) : Option SSub :=
  Elim.seigenspace F.X F.t F.p F.sparse F.rref F.fuel m (eig * F.denom)

/-- the loop of `make_basis2` (libsrc/xsplit.cc:335-339) -/
def climb (F : Finder) : List SSub → List ℤ → Option (List ℤ)
  | [], w => some w
  | s :: rest, w => (Smat.mulVecModP F.t s.basis w F.p).bind (fun (w' : List ℤ) => climb F rest w')

/-- `make_basis2` (libsrc/xsplit.cc:330-341) -/
def makeBasis2 (F : Finder) (chain : List SSub) (v : List ℤ) : Option (List ℤ) := (climb F chain v).bind F.lift

/-- `spm_rel->bas().as_mat().col(1)` (libsrc/xsplit.cc:320) -/
def firstCol (s : SSub) : Option (List ℤ) := (Smat.asMat s.basis).map (fun (m : Mat.M) => m.rows.map (fun r => r.getD 0 0))

/-- `make_basis` (libsrc/xsplit.cc:245-328): `bplus_` and `bminus_`, empty if they are not set -/
def makeBasis (F : Finder) (chain : List SSub) (subdim : ℕ) : Option (List ℤ × List ℤ) :=
  if F.plusflag then
    if chain.length = 0 then some (1 :: List.replicate (F.dimen - 1) 0, [])
    else (makeBasis2 F chain [1]).map (fun (w : List ℤ) => (w, []))
  else
    (nestedSubmat F (-1) chain subdim).bind (fun (c : SM) =>
      (Elim.seigenspace F.X F.t F.p F.sparse F.rref F.fuel c F.denom).bind (fun (s1 : SSub) =>
        if s1.basis.nco ≠ 1 then some ([], [])
        else (firstCol s1).bind (fun (v1 : List ℤ) => (makeBasis2 F chain v1).bind (fun (w1 : List ℤ) =>
          (Elim.seigenspace F.X F.t F.p F.sparse F.rref F.fuel c (-F.denom)).bind (fun (s2 : SSub) =>
            if s2.basis.nco ≠ 1 then some (w1, [])
            else (firstCol s2).bind (fun (v2 : List ℤ) => (makeBasis2 F chain v2).map (fun (w2 : List ℤ) => (w1, w2))))))))

/-- what `store` keeps (libsrc/xsplit.cc:599-616) -/
structure Rec where
  eigs : List ℤ
  bplus : List ℤ
  bminus : List ℤ
deriving DecidableEq, Repr

/-- the tests at the beginning of `find(data)` (libsrc/xsplit.cc:501-535); `down` is the rest -/
def visit (F : Finder) (chain : List SSub) (subdim : ℕ) (eigs : List ℤ) (down : Option (List Rec)) : Option (List Rec) :=
  (F.dimold eigs).bind (fun (dimold : ℤ) =>
    if dimold = subdim then some []
    else if subdim = F.targetdim ∧ eigs.length > F.mindepth then
      (makeBasis F chain subdim).map (fun (b : List ℤ × List ℤ) => [⟨eigs, b.1, b.2⟩])
    else down)

/-- `find(data)` (libsrc/xsplit.cc:500-597); the first argument is `maxdepth - depth` -/
def find (F : Finder) : ℕ → List SSub → ℕ → List ℤ → Option (List Rec)
  | 0, chain, subdim, eigs => visit F chain subdim eigs (some [])
  | rem + 1, chain, subdim, eigs => visit F chain subdim eigs
      ((submat F chain subdim eigs.length).bind (fun (m : SM) =>
        ((F.eigrange eigs.length).mapM (fun (a : ℤ) => (goDown F m a).bind (fun (s : SSub) =>
          if s.basis.nco > 0 then find F rem (s :: chain) s.basis.nco (eigs ++ [a]) else some []))).map List.flatten))

/-- `find()` (libsrc/xsplit.cc:465-498): the forms in the order in which `use` gets them -/
def findAll (F : Finder) : Option (List Rec) := find F F.maxdepth [] F.dimen []

end Eclib.Split
