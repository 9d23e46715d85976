import Verif.Arith.Model
import Verif.Marith.Model
import Verif.Small.XmodModel

/-!
# Model of the sparse vectors of libsrc/svec.cc, libsrc/eclib/svec.h

`std::map<int,scalar>` is an association list sorted by key (the order in which C++ iterates over
it).  The class is compiled for `scalar` = `int`, `long`, `bigint`; the flag `T` selects the scalar
functions.  Scalars are unbounded integers (overflow of `int`/`long` entries is not modelled, except
inside `xmm0`).  The merging loops below are modelled for two different objects: calling e.g. `v+=v`
(the same map read and modified) is not modelled.
-/

namespace Eclib.Svec

open Eclib

/-- The three scalar types of svector.h. -/
inductive T | int | long | big
deriving DecidableEq

/-- `mod(a,p)`: arith.cc:273-296, marith.cc:833-841. -/
def smod : T → Int → Int → Int
  | .big, a, p => Marith.mod a p
  | _, a, p => Arith.mod a p

/-- `xmod(a,p)` (eclib/xmod.h:117-119). -/
def sxmod : T → Int → Int → Int
  | .big, a, p => a.fmod p
  | _, a, p => a.tmod p

/-- `xmodmul(a,b,p)` (eclib/xmod.h:179-183, 195-198, 200).  For `int` and `p = BIGPRIME` the result of
`xmm0` is meaningful only for reduced operands; `none` (overflow) is replaced by 0. -/
def sxmodmul : T → Int → Int → Int → Int
  | .big, a, b, p => (a * b).fmod p
  | .long, a, b, p => ((a * b).tmod p).tmod p
  | .int, a, b, p => if p = Xmod.P then (Xmod.xmm0 a b).getD 0 else ((a * b).tmod p).tmod p

/-- `a / b` -/
def sdiv : T → Int → Int → Int
  | .big, a, b => a.fdiv b
  | _, a, b => a.tdiv b

/-- `gcd(a,b)`: arith.cc:328-334; NTL's GCD for bigint. -/
def sgcd : T → Int → Int → Int
  | .big, a, b => (Int.gcd a b : Int)
  | _, a, b => Arith.gcd a b

/-! ## `std::map` -/

/-- the entries of a map in the order of iteration -/
abbrev Map := List (Int × Int)

/-- `m.find(i)`: the value, if the key is present -/
def find : Map → Int → Option Int
  | [], _ => none
  | (j, x) :: m, i => if i = j then some x else find m i

/-- `m[i]=x` -/
def put : Map → Int → Int → Map
  | [], i, x => [(i, x)]
  | (j, y) :: m, i, x =>
    if i < j then (i, x) :: (j, y) :: m
    else if i = j then (i, x) :: m
    else (j, y) :: put m i x

/-- `m.erase(i)` for a key, or for an iterator pointing to the key `i` -/
def del : Map → Int → Map
  | [], _ => []
  | (j, y) :: m, i => if i = j then m else (j, y) :: del m i

/-- `class svec` (svec.h:28-37) -/
structure SV where
  d : Nat
  entries : Map
deriving DecidableEq, Repr

/-- `svec(int dim)` (svec.h:41) -/
def zero (d : Nat) : SV := ⟨d, []⟩

/-- `svec(const vec&)` (svec.cc:28-37): `v[i]` is the `i`-th entry of the list, counting from 1. -/
def ofVec (v : List Int) : SV :=
  ⟨v.length, (List.range v.length).foldl
    (fun m k => let vi := v.getD k 0; if vi ≠ 0 then put m (k + 1 : Int) vi else m) []⟩

/-- `as_vec` (svec.cc:39-45); `none` if an index is out of bounds. -/
def asVec (v : SV) : Option (List Int) :=
  v.entries.foldl (fun r e => r.bind fun l =>
    if 1 ≤ e.1 ∧ e.1 ≤ (v.d : Int) then some (l.set (e.1 - 1).toNat e.2) else none)
    (some (List.replicate v.d 0))

/-- `elem` (svec.cc:47-52) -/
def elem (v : SV) (i : Int) : Int := (find v.entries i).getD 0

/-- `set` (svec.cc:54-57) -/
def set (v : SV) (i a : Int) : SV := if a ≠ 0 then { v with entries := put v.entries i a } else v

/-- `erase` (svec.cc:59-68); the message is not modelled. -/
def erase (v : SV) (i : Int) : SV :=
  match find v.entries i with
  | none => v
  | some _ => { v with entries := del v.entries i }

/-- `support` (svec.cc:70-76), in the order of `std::set` -/
def support (v : SV) : List Int := v.entries.map (·.1)

/-- `size` (svec.h:71) -/
def size (v : SV) : Nat := v.entries.length

/-- `add(i,a)` (svec.cc:78-90) -/
def add (v : SV) (i a : Int) : SV :=
  if a = 0 then v
  else match find v.entries i with
    | none => { v with entries := put v.entries i a }
    | some x =>
      let sum := x + a
      if sum = 0 then { v with entries := del v.entries i }
      else { v with entries := put v.entries i sum }

/-- `sub(i,a)` (svec.cc:92-96) -/
def sub (v : SV) (i a : Int) : SV := if a = 0 then v else add v i (-a)

/-- `add_mod_p(i,a,p)` (svec.cc:98-111) -/
def addModP (t : T) (v : SV) (i aa p : Int) : SV :=
  let a := smod t aa p
  if a = 0 then v
  else match find v.entries i with
    | none => { v with entries := put v.entries i a }
    | some x =>
      let sum := smod t (x + a) p
      if sum = 0 then { v with entries := del v.entries i }
      else { v with entries := put v.entries i sum }

/-- `sub_mod_p(i,a,p)` (svec.cc:113-116) -/
def subModP (t : T) (v : SV) (i a p : Int) : SV := addModP t v i (-a) p

/-- The merging loop common to `operator+=` (svec.cc:125-154), `add_scalar_times` (172-201),
`add_scalar_times_mod_p` (248-277, 294-325) and `add_mod_p` (337-366).  `ins y` is the value stored for
an index present in `w` only, `comb x y` the new value for an index present in both.
`bef` holds the entries before the iterator `vi`, `aft` those from `vi` on; `wi` is the rest of
`w.entries`.  `entries[k]=x` with `k` smaller than the key at `vi` inserts into the part before `vi`.
The second and third components are the sets `ons` and `offs` of the version at svec.cc:282-328 (in order
of insertion). -/
def merge (ins : Int → Int) (comb : Int → Int → Int) (bef aft wi : Map) (ons offs : List Int) :
    Map × List Int × List Int :=
  match wi, aft with
  | [], aft => (bef ++ aft, ons, offs)
  | (k, y) :: wi, [] => merge ins comb (put bef k (ins y)) [] wi (ons ++ [k]) offs
  | (k, y) :: wi, (j, x) :: aft =>
    if j < k then merge ins comb (bef ++ [(j, x)]) aft ((k, y) :: wi) ons offs
    else if k < j then merge ins comb (put bef k (ins y)) ((j, x) :: aft) wi (ons ++ [k]) offs
    else
      let sum := comb x y
      if sum ≠ 0 then merge ins comb (bef ++ [(j, sum)]) aft wi ons offs
      else merge ins comb (del (bef ++ [(j, x)]) k) aft wi ons (offs ++ [k])
termination_by aft.length + wi.length

/-- `operator+=` (svec.cc:118-156) -/
def iadd (v w : SV) : SV :=
  if v.d ≠ w.d then v
  else { v with entries := (merge id (· + ·) [] v.entries w.entries [] []).1 }

/-- `operator*=` (svec.cc:205-210) -/
def imul (v : SV) (s : Int) : SV := { v with entries := v.entries.map fun e => (e.1, e.2 * s) }

/-- unary minus (svec.h:117-118) -/
def neg (v : SV) : SV := imul v (-1)

/-- `operator-=` (svec.cc:158-162) -/
def isub (v w : SV) : SV := iadd v (neg w)

/-- `operator+` (svec.h:119-129) -/
def plus (v w : SV) : SV := if size v < size w then iadd w v else iadd v w

/-- `operator-` (svec.h:130-133) -/
def minus (v w : SV) : SV := plus v (neg w)

/-- `add_scalar_times` (svec.cc:164-203) -/
def addScalarTimes (v w : SV) (a : Int) : SV :=
  if v.d ≠ w.d then v
  else if a = 0 then v
  else { v with entries := (merge (a * ·) (fun x y => x + a * y) [] v.entries w.entries [] []).1 }

/-- `reduce_mod_p` (svec.cc:212-228) -/
def reduceModP (t : T) (v : SV) (p : Int) : SV :=
  { v with entries := v.entries.filterMap fun e =>
      let a := smod t e.2 p
      if a ≠ 0 then some (e.1, a) else none }

/-- `mult_by_scalar_mod_p` (svec.cc:230-237) -/
def multByScalarModP (t : T) (v : SV) (scal p : Int) : SV :=
  let s := smod t scal p
  if s ≠ 1 then { v with entries := v.entries.map fun e => (e.1, sxmodmul t e.2 s p) } else v

/-- `add_scalar_times_mod_p` (svec.cc:239-280, and 282-328 with the sets `ons`, `offs`) -/
def addScalarTimesModP (t : T) (v w : SV) (scal p : Int) : SV × List Int × List Int :=
  if v.d ≠ w.d then (v, [], [])
  else
    let a := smod t scal p
    if a = 0 then (v, [], [])
    else
      let r := merge (fun y => sxmodmul t a y p) (fun x y => sxmod t (x + sxmodmul t a y p) p)
        [] v.entries w.entries [] []
      ({ v with entries := r.1 }, r.2)

/-- `add_mod_p(w,p)` (svec.cc:330-368) -/
def addVecModP (t : T) (v w : SV) (p : Int) : SV :=
  if v.d ≠ w.d then v
  else { v with entries := (merge id (fun x y => sxmod t (x + y) p) [] v.entries w.entries [] []).1 }

/-- `sub_mod_p(w,p)` (svec.cc:370-374) -/
def subVecModP (t : T) (v w : SV) (p : Int) : SV := addVecModP t v (neg w) p

/-- `operator/=` (svec.cc:376-383); `none`: division by zero, which happens if the scalar is 0 and
there are entries. -/
def idiv (t : T) (v : SV) (s : Int) : Option SV :=
  if s = 0 ∧ v.entries ≠ [] then none
  else some { v with entries := v.entries.map fun e => (e.1, sdiv t e.2 s) }

/-- `eqmodp` (svec.cc:387-397) -/
def eqmodp (t : T) (v1 v2 : SV) (p : Int) : Bool :=
  if v1.d ≠ v2.d then false
  else if v1.entries.any fun e => sxmod t (e.2 - elem v2 e.1) p ≠ 0 then false
  else if v2.entries.any fun e => sxmod t (e.2 - elem v1 e.1) p ≠ 0 then false
  else true

/-- `operator==(svec,svec)` (svec.h:141-144) -/
def eq (v1 v2 : SV) : Bool := v1.d = v2.d && v1.entries = v2.entries

/-- `operator==(svec,vec)` (svec.cc:399-404) -/
def eqVec (v1 : SV) (v2 : List Int) : Bool :=
  if v1.d ≠ v2.length then false
  else (List.range v1.d).all fun k => v2.getD k 0 = elem v1 (k + 1)

/-- the loop common to the two dot products (svec.cc:423-431, 457-465): `acc` updates the sum -/
def dotLoop (acc : Int → Int → Int → Int) (ans : Int) (vi wi : Map) : Int :=
  match vi, wi with
  | (j, x) :: vi, (k, y) :: wi =>
    if j < k then dotLoop acc ans vi ((k, y) :: wi)
    else if k < j then dotLoop acc ans ((j, x) :: vi) wi
    else dotLoop acc (acc ans x y) vi wi
  | _, _ => ans
termination_by vi.length + wi.length

/-- `operator*(svec,svec)` (svec.cc:418-433) -/
def dot (v w : SV) : Int :=
  if size v = 0 ∨ size w = 0 then 0
  else dotLoop (fun ans x y => ans + x * y) 0 v.entries w.entries

/-- `dotmodp(svec,svec,pr)` (svec.cc:452-467) -/
def dotModP (t : T) (v w : SV) (p : Int) : Int :=
  if size v = 0 ∨ size w = 0 then 0
  else dotLoop (fun ans x y => smod t (ans + sxmodmul t x y p) p) 0 v.entries w.entries

/-- `operator*(svec,vec)` (svec.cc:435-442); `none`: index out of bounds. -/
def dotVec (v : SV) (w : List Int) : Option Int :=
  v.entries.foldl (fun r e => r.bind fun ans =>
    if 1 ≤ e.1 ∧ e.1 ≤ (w.length : Int) then some (ans + e.2 * w.getD (e.1 - 1).toNat 0) else none) (some 0)

/-- `dotmodp(svec,vec,pr)` (svec.cc:444-450) -/
def dotVecModP (t : T) (v : SV) (w : List Int) (p : Int) : Option Int :=
  v.entries.foldl (fun r e => r.bind fun ans =>
    if 1 ≤ e.1 ∧ e.1 ≤ (w.length : Int) then
      some (smod t (ans + sxmodmul t e.2 (w.getD (e.1 - 1).toNat 0) p) p) else none) (some 0)

/-- the loop of `content` (svec.cc:472-478) -/
def contentLoop (t : T) (g : Int) : Map → Int
  | [] => g
  | e :: m => let g := sgcd t g e.2; if g = 1 then g else contentLoop t g m

/-- `content` (svec.cc:469-479) -/
def content (t : T) (v : SV) : Int := contentLoop t 0 v.entries

/-- `make_primitive` (svec.cc:481-486): the new vector and the content. -/
def makePrimitive (t : T) (v : SV) : Option (SV × Int) :=
  let c := content t v
  (idiv t v c).map fun v => (v, c)

end Eclib.Svec
