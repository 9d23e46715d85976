import Verif.Legendre.ConicModel
import Verif.Bits.SqfModel
import Verif.Local.HilbertModel
import Verif.Arith.Model
import Verif.Forms.MinimModel
import Verif.Local.LocallySoluble

/-!
# Model of desc2.cc: second descent on `y² = d1 x⁴ + c x² z² + d2 z⁴`

Not modelled, but parameters (`DLib`): the factorization `pdivs`, the method of `locallysoluble` for primes from 1000 on,
the floating point part of `reduce`, and the search for points.  Messages are left out.
-/

namespace Eclib.Desc2

open Legendre (solveConic solveConicParam)
open Marith (XGcd SqrRootMod isqrt val)
open Forms (Q G SU)
open Sqf (makenum sqfmul)
open Local (globalHilbertQ)

/-- NTL's `GCD`: not negative -/
abbrev gcd (a b : ℤ) : ℤ := (Int.gcd a b : ℤ)

/-- The parts of the library used by `desc2.cc` which are parameters of the model. -/
structure DLib where
  /-- `pdivs(n)` -/
  pdivs : ℤ → List ℤ
  /-- the method of `new_qpsoluble` for primes from 1000 on (mlocsol.cc:230-265), for the coefficients and the prime -/
  ss : ℤ → ℤ → ℤ → ℤ → ℤ → ℤ → Option Bool
  /-- `reduce_quad` for the covariant quadratic of a quartic (reduce.cc:207-208); floating point -/
  redQ : G → Forms.U
  /-- `qs.search(hlim)` and `qs.getpoint(x,y,z)` (desc2.cc:446-457) -/
  search : G → Option (ℤ × ℤ × ℤ)

/-- `g_content` (transform.cc:32-51).  The function `sqdivs` for `bigint` (marith.cc:620-655) is the same as the one for
`long` (arith.cc:229-243) -/
def gContent (pdivs : ℤ → List ℤ) (g : G) : ℤ :=
  let ans := |g.a|
  if ans = 1 then ans else
  let ans := gcd ans g.b
  if ans = 1 then ans else
  let ans := gcd ans g.c
  if ans = 1 then ans else
  let ans := gcd ans g.d
  if ans = 1 then ans else
  let ans := gcd ans g.e
  if ans = 1 then ans else
  (Arith.sqdivs ans (pdivs ans)).getLastD 0

/-- The quartic `d3·q3(Q1,Q3)` (desc2.cc:303-317) -/
def quarticOf (q3 Q1 Q3 : Q) (d3 : ℤ) : G :=
  ⟨q3.eval Q1.a Q3.a * d3,
   (q3.a * (2 * Q1.a * Q1.b) + q3.b * (Q1.a * Q3.b + Q1.b * Q3.a) + q3.c * (2 * Q3.a * Q3.b)) * d3,
   (q3.a * (Q1.b ^ 2 + 2 * Q1.a * Q1.c) + q3.b * (Q1.a * Q3.c + Q1.b * Q3.b + Q1.c * Q3.a)
      + q3.c * (Q3.b ^ 2 + 2 * Q3.a * Q3.c)) * d3,
   (q3.a * (2 * Q1.b * Q1.c) + q3.b * (Q1.b * Q3.c + Q1.c * Q3.b) + q3.c * (2 * Q3.b * Q3.c)) * d3,
   q3.eval Q1.c Q3.c * d3⟩

/-- Division by the square part of the content (desc2.cc:319-327) -/
def simplifyG (pdivs : ℤ → List ℤ) (g : G) : G :=
  let cont := gContent pdivs g
  if cont > 1 then g.divBy (cont ^ 2) else g

/-- `fac=gcd(x,z); if(fac>1) {x/=fac; z/=fac;}` (desc2.cc:465, 470, 475) -/
def reduce2 (x z : ℤ) : ℤ × ℤ :=
  let fac := gcd x z
  if fac > 1 then (x.fdiv fac, z.fdiv fac) else (x, z)

/-- Outcome of `process_d3`: return values -1, 0, 1 with the point; `problem`: "process_d3 failed!" or a division in
`solve_conic_param` which is not exact -/
inductive D3 where
  | notEls
  | noPoint
  | point (x y z : ℤ)
  | problem
deriving DecidableEq, Repr

/-- Mapping a point of the descendent quartic back (desc2.cc:463-491).  The values stored in `x`, `y`, `z` before the
message "process_d3 failed!" are left out. -/
def mapBack (q0 q1 q3 Q1 Q3 : Q) (m : SU) (x z : ℤ) : D3 :=
  let r := reduce2 (m.m11 * x + m.m12 * z) (m.m21 * x + m.m22 * z)
  let s := reduce2 (Q1.eval r.1 r.2) (Q3.eval r.1 r.2)
  let t := reduce2 |q1.eval s.1 s.2| |q3.eval s.1 s.2|
  let y2 := q0.eval t.1 t.2
  if (isqrt t.1).1 && (isqrt t.2).1 && (isqrt y2).1 then .point (isqrt t.1).2 (isqrt y2).2 (isqrt t.2).2
  else .problem

/-- `vector_union` (templates.h:101-107), i.e. `std::set_union` -/
def setUnion : List ℤ → List ℤ → List ℤ
  | [], b => b
  | a, [] => a
  | x :: a, y :: b =>
    if x < y then x :: setUnion a (y :: b)
    else if y < x then y :: setUnion (x :: a) b
    else x :: setUnion a b
termination_by a b => a.length + b.length

/-- `ggbadp` (desc2.cc:341-349): `plist` and the other primes dividing the discriminant.  The elements of `plist` are
primes, so `divide_out` returns. -/
def badPrimes (pdivs : ℤ → List ℤ) (plist : List ℤ) (g : G) : List ℤ :=
  let D := plist.foldl (fun D p => ((Marith.divideOut D p).map (fun r : ℤ × ℕ => r.1)).getD D) |g.disc|
  if D > 1 then setUnion plist (pdivs D) else plist

/-- `reduce` (reduce.cc:203-235): the new quartic and the matrix `n` multiplied by the transform; `none` is a division by
zero in `mod(b,newa4)` -/
def reduceG (redQ : G → Forms.U) (g : G) (n : Forms.U) : Option (G × Forms.U) :=
  let m1 := redQ g
  let n := n.mul m1
  let g := g.apply m1
  let newa4 := 4 * g.a
  if newa4 = 0 then none
  else
    let alpha := (Marith.mod g.b newa4 - g.b).fdiv newa4
    if alpha ≠ 0 then some (g.xshift n alpha) else some (g, n)

/-- The loop with `reduce` (desc2.cc:408-430), with at most the given number of turns; `first` is `ired==0`.  The quartic
is the one in `ga`, …, `ge`, which is the same as in `oldga`, …, `oldge` at the start of every turn.  The result is
the quartic `gg` and the transform `m`. -/
def reduceLoop (redQ : G → Forms.U) : ℕ → Bool → G → SU → Option (G × SU)
  | 0, _, g, m => some (g, m)
  | k + 1, first, g, m =>
    match reduceG redQ g Forms.U.one with
    | none => none
    | some (g', n) =>
      let better := decide (|g'.a| ≤ |g.a|) &&
        !(decide (g'.b = g.b) && decide (g'.c = g.c) && decide (g'.d = g.d) && decide (g'.e = g.e))
      if better then reduceLoop redQ k false g' (m.mulU n)
      else if first then some (g', m.mulU n)
      else some (g, m)

/-- `process_d3` (desc2.cc:257-492).  The number of steps for `qpsoluble` is the bound of C62. -/
def processD3 (X : XGcd) (S : SqrRootMod) (L : DLib) (plist fb : List ℤ) (q0 q1 q3 : Q) (selmerOnly : Bool) (d3 : ℤ) :
    D3 :=
  match solveConicParam X S q1.a q1.b q1.c d3 fb with
  | .problem => .problem
  | .insol => .notEls
  | .sol Q1 _ Q3 =>
    match solveConic X S q3.a q3.b q3.c d3 fb with
    | .problem => .problem
    | .insol => .notEls
    | .sol _ _ _ =>
      let gg := simplifyG L.pdivs (quarticOf q3 Q1 Q3 d3)
      let ggbadp := badPrimes L.pdivs plist gg
      let r := Forms.minimAllP X false ggbadp gg SU.one gg.II gg.JJ
      match LocSol.locallysoluble L.ss (r.1.disc.natAbs + 2) r.1 plist 0 with
      | none => .problem
      | some (els, _) =>
        if !els then .notEls
        else if selmerOnly then .noPoint
        else
          let t := Forms.minimAllP X true ggbadp r.1 r.2.1 r.2.2.1 r.2.2.2.1
          match reduceLoop L.redQ 5 true t.1 t.2.1 with
          | none => .problem
          | some w =>
            match L.search w.1 with
            | none => .noPoint
            | some p => mapBack q0 q1 q3 Q1 Q3 w.2 p.1 p.2.2

/-- The variables of the first loop of `desc2` -/
structure DSt where
  /-- `looking` -/
  looking : Bool
  /-- `found` -/
  found : Bool
  /-- `keepd3` -/
  keep : ℤ
  /-- `x`, `y`, `z` -/
  pt : ℤ × ℤ × ℤ
  /-- `factorbase` -/
  fb : List ℤ
  /-- `factorbase_enlarged` -/
  big : Bool

/-- The treatment of one `d3` in the first loop (desc2.cc:137-171 and 176-213); `none` is the outcome `problem` of
`process_d3` or a Hilbert symbol which does not return -/
def tryD3 (X : XGcd) (S : SqrRootMod) (L : DLib) (plist : List ℤ) (q0 q1 q3 : Q) (selmerOnly : Bool) (d3 : ℤ) (st : DSt) :
    Option DSt :=
  match globalHilbertQ q1.a q1.b q1.c d3 st.fb 0, globalHilbertQ q3.a q3.b q3.c d3 st.fb 0 with
  | some h1, some h3 =>
    if h1.1 ≠ 0 ∨ h3.1 ≠ 0 then some st
    else
      let fb := if st.big then st.fb else setUnion (setUnion st.fb (L.pdivs q1.a)) (L.pdivs q3.a)
      match processD3 X S L plist fb q0 q1 q3 selmerOnly d3 with
      | .problem => none
      | .notEls => some { st with fb := fb, big := true }
      | .noPoint => some { st with fb := fb, big := true, looking := false, keep := d3 }
      | .point x y z => some { st with fb := fb, big := true, looking := false, keep := d3, found := true, pt := (x, y, z) }
  | _, _ => none

/-- The first loop of `desc2` (desc2.cc:131-215), over the remaining values of `id3` -/
def loop1 (X : XGcd) (S : SqrRootMod) (L : DLib) (plist : List ℤ) (q0 q1 q3 : Q) (selmerOnly alldesc add2 : Bool)
    (supp : List ℤ) (mask : ℕ) : List ℕ → DSt → Option DSt
  | [], st => some st
  | i :: is, st =>
    if st.looking || alldesc then
      match makenum supp i with
      | none => none
      | some d3 =>
        if i &&& mask ≠ 0 then loop1 X S L plist q0 q1 q3 selmerOnly alldesc add2 supp mask is st
        else
          match tryD3 X S L plist q0 q1 q3 selmerOnly d3 st with
          | none => none
          | some st1 =>
            if (st1.looking || alldesc) && add2 then
              match tryD3 X S L plist q0 q1 q3 selmerOnly (2 * d3) st1 with
              | none => none
              | some st2 => loop1 X S L plist q0 q1 q3 selmerOnly alldesc add2 supp mask is st2
            else loop1 X S L plist q0 q1 q3 selmerOnly alldesc add2 supp mask is st1
    else some st

/-- Outcome of `desc2`: return values -1, 0, 1 with the point -/
inductive D2 where
  | noPoints
  | undecided
  | point (x y z : ℤ)
  | problem
deriving DecidableEq, Repr

/-- The second loop of `desc2` (desc2.cc:241-251), over the remaining values of `id3`; `found` is the point, if any -/
def loop2 (X : XGcd) (S : SqrRootMod) (L : DLib) (plist fb : List ℤ) (q0 q1 q3 : Q) (alldesc : Bool) (keep : ℤ)
    (bgens : List ℤ) : List ℕ → D2 → D2
  | [], found => found
  | i :: is, found =>
    match makenum bgens i with
    | none => .problem
    | some k =>
      match processD3 X S L plist fb q0 q1 q3 false (sqfmul keep k) with
      | .problem => .problem
      | .point x y z => if !alldesc then .point x y z else
          loop2 X S L plist fb q0 q1 q3 alldesc keep bgens is (.point x y z)
      | _ => loop2 X S L plist fb q0 q1 q3 alldesc keep bgens is found

/-- `desc2` (desc2.cc:54-254).  A shift `1<<n` of an `int` with `n ≥ 31` is `problem`. -/
def desc2 (X : XGcd) (S : SqrRootMod) (L : DLib) (c d1 d2 : ℤ) (plist supp bgens : List ℤ) (mask : ℕ)
    (selmerOnly alldesc : Bool) : D2 :=
  let ddash := c ^ 2 - 4 * (d1 * d2)
  let add2 := val 2 ddash = 4 && !supp.contains 2
  let sq := (isqrt ddash).1
  match solveConicParam X S d1 c d2 1 plist with
  | .problem => .problem
  | .insol => .noPoints
  | .sol q1 _ q3 =>
    let q0 : Q := ⟨d1, c, d2⟩
    if 31 ≤ supp.length then .problem
    else
      match loop1 X S L plist q0 q1 q3 selmerOnly alldesc add2 supp mask (List.range (2 ^ supp.length))
        ⟨true, false, 0, (0, 0, 0), plist, false⟩ with
      | none => .problem
      | some st =>
        if st.found then .point st.pt.1 st.pt.2.1 st.pt.2.2
        else if st.looking then .noPoints
        else if selmerOnly then .undecided
        else if 31 ≤ bgens.length then .problem
        else
          let nd3 := 2 ^ bgens.length
          let step := if sq then 1 else 2
          if nd3 = step then .undecided
          else loop2 X S L plist st.fb q0 q1 q3 alldesc st.keep bgens
            ((List.range nd3).filter fun i => decide (0 < i) && decide (i % step = 0)) .undecided

end Eclib.Desc2
