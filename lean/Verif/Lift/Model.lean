import Verif.Smat.Model
import Verif.Mat.Model
import Verif.Marith.Model

/-!
# Model of the functions lifting from a prime field to the rationals: liftmat, lift

`smat.cc`, `mat.cc`, `sub.cc` and `vec.cc`.  Scalars are unbounded integers; the type `T` selects the scalar
functions.  Messages are not modelled.
-/

namespace Eclib.Lift

open Svec (T SV smod sxmodmul sdiv sgcd)
open Smat (SM Row)
open Mat (smodrat sinvmod)

/-- `sqrt(pr>>1)` converted to an integer (smat.cc:904, mat.cc:1539).  Simplification: the `double` square root
is replaced by the exact integer square root. -/
def lim (p : ℤ) : ℤ := Nat.sqrt (p / 2).toNat

/-- `lcm` (arith.cc:344-349, marith.h:51-52) -/
def slcm (t : T) (a b : ℤ) : ℤ := if sgcd t a b = 0 then 0 else a * sdiv t b (sgcd t a b)

/-! ## sparse matrices -/

/-- the values of a sparse matrix in the order of the loops over rows and entries -/
def vals (m : SM) : Option (List ℤ) := (m.rows.mapM Row.read).map fun ls => ls.flatMap fun l => l.map (·.2)

/-- `maxabs(const smat&)` (smat.cc:876-887) -/
def smaxabs (m : SM) : Option ℤ := (vals m).map fun l => l.foldl (fun a x => max a |x|) 0

/-- the loop of `liftmat` over the values (smat.cc:919-938): the flag and the common denominator `dd` -/
def denoms (t : T) (p : ℤ) : ℤ → List ℤ → Option (Bool × ℤ)
  | dd, [] => some (true, dd)
  | dd, v :: l =>
    if |v| < lim p then denoms t p dd l
    else (smodrat t v p).bind fun r =>
      if r.2.2 then denoms t p (slcm t |r.2.1| dd) l else some (false, slcm t |r.2.1| dd)

/-- `liftmat(const smat& mm, scalar pr, smat& m, scalar& dd)` (smat.cc:901-949): the value returned, `m` and `dd` -/
def liftmat (t : T) (mm : SM) (p : ℤ) : Option (Bool × SM × ℤ) :=
  (Smat.reduceModP t mm p).bind fun m => (smaxabs m).bind fun ma =>
  if ma < lim p then some (true, m, 1)
  else (vals m).bind fun l => (denoms t p 1 l).bind fun r =>
    if r.1 then (Smat.mapVals m fun x => smod t (sxmodmul t |r.2| x p) p).map fun m' => (true, m', |r.2|)
    else some (false, m, r.2)

/-- `bezout` for the scalars: arith.cc:351-361, NTL's XGCD -/
def sbezout (X : Marith.XGcd) : T → ℤ → ℤ → ℤ × ℤ × ℤ
  | .big, a, b => X.run a b
  | _, a, b => Arith.bezout a b

/-- the first loop of `liftmats_chinese` over a row (smat.cc:965-990): the values are combined and `dd` and the last
`d` updated.  `mr` is `modrat` modulo `p1*p2`.  The second list is `m2.val[nr]`: a value which does not exist is an access outside the array. -/
def crtRow (mr : ℤ → Option (ℤ × ℤ × Bool)) (t : T) (p1 p2 u v : ℤ) : ℤ → ℤ → List ℤ → List ℤ → Option (Bool × ℤ × ℤ × List ℤ)
  | dd, d, [], _ => some (true, dd, d, [])
  | _, _, _ :: _, [] => none
  | dd, _, x :: l, y :: l' =>
    let mij := smod t (sxmodmul t v x p1 * p2 + sxmodmul t u y p2 * p1) (p1 * p2)
    (mr mij).bind fun r =>
      if r.2.2 then (crtRow mr t p1 p2 u v (slcm t r.2.1 dd) r.2.1 l l').map fun z => (z.1, z.2.1, z.2.2.1, mij :: z.2.2.2)
      else some (false, dd, r.2.1, [])

/-- `liftmats_chinese` with the function `modrat` given -/
def liftChineseWith (mr : ℤ → Option (ℤ × ℤ × Bool)) (X : Marith.XGcd) (t : T) (m1 : List ℤ) (p1 : ℤ) (m2 : List ℤ) (p2 : ℤ) : Option (Bool × List ℤ × ℤ) :=
  let b := sbezout X t p1 p2
  if b.1 ≠ 1 then some (false, [], b.1)
  else (crtRow mr t p1 p2 b.2.1 b.2.2 1 1 m1 m2).bind fun r =>
    if r.1 then
      if r.2.2.1 = 0 ∧ m1 ≠ [] then none
      else some (true, r.2.2.2.map fun x => smod t (sxmodmul t (sdiv t |r.2.1| r.2.2.1) x (p1 * p2)) (p1 * p2), |r.2.1|)
    else some (false, [], r.2.1)

/-- `liftmats_chinese` (smat.cc:953-1002) for matrices with one row, given by the values of the entries, at the same
places in both: the value returned, the new values and `dd`.  In the second loop the values are multiplied by
`dd/d` with the last `d` of the first loop.  If the value returned is 0 the values are not described. -/
def liftChinese (X : Marith.XGcd) (t : T) (m1 : List ℤ) (p1 : ℤ) (m2 : List ℤ) (p2 : ℤ) : Option (Bool × List ℤ × ℤ) :=
  liftChineseWith (smodrat t · (p1 * p2)) X t m1 p1 m2 p2

/-! ## dense matrices -/

/-- `maxabs(const mat&)` (mat.cc:1563-1568): the function given to `for_each` has `a` by reference but does not
change it -/
def maxabs (m : Mat.M) : ℤ := m.rows.flatten.foldl (fun a x => let _ := max a |x|; a) 0

/-- the state of the loop in `liftmat` (mat.cc:1543-1547): `success`, `dd` and `d`; `d=lcm(d,dd)` leaves `dd`
unchanged -/
def denomsD (t : T) (p : ℤ) : Bool → ℤ → List ℤ → Option (Bool × ℤ)
  | s, dd, [] => some (s, dd)
  | s, dd, v :: l =>
    if |v| > lim p then (smodrat t v p).bind fun r => denomsD t p (s && r.2.2) dd l
    else denomsD t p s dd l

/-- `liftmat(const mat& mm, const scalar& pr, mat& m, scalar& dd)` (mat.cc:1530-1561): the value returned, `m` and
`dd`.  `dd0` is the value of `dd` before the call, `none` if it has none. -/
def liftmatD (t : T) (mm : Mat.M) (p : ℤ) (dd0 : Option ℤ) : Option (Bool × Mat.M × Option ℤ) :=
  let m := Mat.reduceModP t p mm
  if maxabs m < lim p then some (true, m, dd0)
  else (denomsD t p true 1 m.rows.flatten).map fun r =>
    (r.1, ⟨m.nc, m.rows.map (·.map fun x => smod t (sxmodmul t |r.2| x p) p)⟩, some |r.2|)

/-- `scalar dd;`: a `bigint` is 0 by its constructor, an `int` or `long` has no value -/
def fresh : T → Option ℤ
  | .big => some 0
  | _ => none

/-- `lift(const subspace& s, const scalar& pr, subspace& ans)` (sub.cc:219-228); `none` if `dd` is used without a
value -/
def liftSub (t : T) (s : Mat.Sub) (p : ℤ) : Option (Bool × Mat.Sub) :=
  (liftmatD t s.basis p (fresh t)).bind fun r => r.2.2.map fun dd => (r.1, ⟨dd, s.pivots, r.2.1⟩)

/-! ## vectors -/

/-- `maxabs(const vec&)` (vec.cc:201-207) -/
def vmaxabs (l : List ℤ) : ℤ := l.foldl (fun a x => max a |x|) 0

/-- `for(i0=1; i0<=d; i0++) { while(ans[i0]==0) {i0++;} if(ans[i0]<0) ans=-ans; return f; } return 0;` (vec.cc:306-313,
336-343, 347-353).  `none`: the access to the vector is out of range, which throws an exception. -/
def normalize (f : Bool) (ans : List ℤ) : Option (Bool × List ℤ) :=
  if ans = [] then some (false, ans)
  else (ans.find? (· ≠ 0)).map fun x => (f, if x < 0 then ans.map (- ·) else ans)

/-- `ans[j] = mod(xmodmul(c,ans[j],pr),pr)` for all `j` (vec.cc:296-300, 326-330) -/
def scale (t : T) (p c : ℤ) (ans : List ℤ) : List ℤ := ans.map fun x => smod t (sxmodmul t c x p) p

/-- the loop over `i` (vec.cc:315-344); the state is `ans` and `maxvi`; the outcome is a value to be returned, or
the state after the loop.  `mr` is `modrat` modulo `p`. -/
def innerLoop (mr : ℤ → Option (ℤ × ℤ × Bool)) (t : T) (p maxallowed : ℤ) : List ℕ → List ℤ × ℤ → Option ((Bool × List ℤ) ⊕ (List ℤ × ℤ))
  | [], st => some (.inr st)
  | i :: l, st =>
    (st.1[i]?).bind fun x => (mr x).bind fun r =>
      if |r.2.1| = 1 then innerLoop mr t p maxallowed l st
      else
        let ans := scale t p |r.2.1| st.1
        if vmaxabs ans ≤ maxallowed then (normalize true ans).map .inl
        else innerLoop mr t p maxallowed l (ans, vmaxabs ans)

/-- the loop over `i0` (vec.cc:284-345), the index counting from 0: `maxvi` is not set back to 0 between the
iterations; the test in the inner loop `while((vi0=ans[i0])==0)` has no bound for `i0` -/
def outerLoop (mr : ℤ → Option (ℤ × ℤ × Bool)) (X : Marith.XGcd) (t : T) (p maxallowed lim : ℤ) : ℕ → ℕ → List ℤ × ℤ → Option (Bool × List ℤ)
  | 0, _, _ => none
  | fuel + 1, i0, st =>
    if st.1.length ≤ i0 then normalize (decide (st.2 ≤ lim)) st.1
    else ((st.1.drop i0).findIdx? (· ≠ 0)).bind fun k => (st.1[i0 + k]?).bind fun vi0 =>
      let ans := scale t p (sinvmod X t vi0 p) st.1
      let maxvi := max st.2 (vmaxabs ans)
      if maxvi ≤ maxallowed then normalize true ans
      else (innerLoop mr t p maxallowed (List.range ans.length) (ans, maxvi)).bind fun
        | .inl r => some r
        | .inr st' => outerLoop mr X t p maxallowed lim fuel (i0 + k + 1) st'

/-- `lift` with the function `modrat` given -/
def liftVecWith (mr : ℤ → Option (ℤ × ℤ × Bool)) (X : Marith.XGcd) (t : T) (v : List ℤ) (p : ℤ) : Option (Bool × List ℤ) :=
  let lm := lim p - 1
  let ans := v.map (smod t · p)
  if vmaxabs ans ≤ 10 * lm then some (true, ans)
  else outerLoop mr X t p (10 * lm) lm (v.length + 1) 0 (ans, 0)

/-- `lift(const vec& v, const scalar& pr, vec& ans)` (vec.cc:249-355): the value returned and `ans`; `none` if an
access is out of range -/
def liftVec (X : Marith.XGcd) (t : T) (v : List ℤ) (p : ℤ) : Option (Bool × List ℤ) := liftVecWith (smodrat t · p) X t v p

end Eclib.Lift
