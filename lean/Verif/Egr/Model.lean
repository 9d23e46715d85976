import Verif.Arith.Model
import Mathlib.Algebra.Group.Int.Defs
import Mathlib.Algebra.Group.Basic
import Mathlib.Logic.Function.Basic

/-!
# Model of egr.cc: points with good reduction, component groups, index of the subgroup with everywhere good reduction

The group of points is an arbitrary commutative group `A`.  At each prime (0 stands for the real place, as in the code) the
class `ComponentGroups` provides: the reduction data, the test `has_good_reduction`, and for type I_m with cyclic group of order
at least 5 the function `ImageInComponentGroup_Im` (egr.cc:90-168), which is not modelled: it is a field of the
environment, and the theorems say what is assumed of it.  A `vector<Point>` is a function `ℕ → A` together with the number of points.
-/

namespace Eclib.Egr

open Eclib.Arith (bezout)

/-- the data of `ComponentGroups` used; `reduct p` is the entry of `reduct_array` at `p` (c_p and Kodaira code), if any -/
structure Env (A : Type) where
  conncomp : ℕ
  reduct : ℤ → Option (ℕ × ℤ)
  good : ℤ → A → Bool
  imageIm : ℤ → A → ℕ → ℤ

variable {A : Type} [AddCommGroup A] [DecidableEq A]

/-- `ComponentGroups::ComponentGroup` (egr.cc:35-50) -/
def componentGroup (E : Env A) (p : ℤ) : List ℕ :=
  if p = 0 then [E.conncomp]
  else match E.reduct p with
    | none => [1]
    | some (cp, code) => if code.tmod 10 = 1 ∧ ((code - 1).tdiv 10).tmod 2 = 0 then [2, 2] else [cp]

/-- `InSameComponent` (egr.cc:54-58) -/
def sameComp (E : Env A) (p : ℤ) (P Q : A) : Bool := if P = Q then true else E.good p (P - Q)

/-- `ImageInComponentGroup` (egr.cc:170-211); for a group which is not cyclic the code prints an error and returns 0 -/
def imageCG (E : Env A) (p : ℤ) (P : A) (grp : List ℕ) : ℤ :=
  if grp.length = 2 then 0
  else
    let n := grp.headD 0
    if n = 1 then 0
    else if n = 2 ∨ n = 3 then (if E.good p P then 0 else 1)
    else if n = 4 then (if E.good p P then 0 else if E.good p (P + P) then 2 else 1)
    else E.imageIm p P n

/-- `OrderInComponentGroup` (egr.cc:222-244) -/
def orderCG (E : Env A) (p : ℤ) (P : A) (grp : List ℕ) : ℕ :=
  if grp.length = 2 then (if !E.good p P then 2 else 1)
  else grp.headD 0 / Nat.gcd (grp.headD 0) (imageCG E p P grp).natAbs

/-- the state of the loop for the non-cyclic case of `gr1prime` (egr.cc:275-277): the list, `logm`, `Third`; `m` is `2^logm` -/
structure St (A : Type) where
  l : ℕ → A
  logm : ℕ
  third : A

/-- one passage of the loop on points in the non-cyclic case (egr.cc:279-358); `none` when the code returns 0 after an error -/
def ncStep (E : Env A) (p : ℤ) (s : St A) (k : ℕ) : Option (St A) :=
  let Pk := s.l k
  let j := orderCG E p Pk [2, 2]
  if 2 % j ≠ 0 then none
  else if j = 1 then some s
  else if s.logm = 0 then
    if 0 < k then
      some { s with l := Function.update (Function.update s.l k (s.l 0)) 0 Pk, logm := 1 }
    else some { s with logm := 1 }
  else if s.logm = 1 then
    if sameComp E p Pk (s.l 0) then some { s with l := Function.update s.l k (Pk - s.l 0) }
    else
      let l' := if 1 < k then Function.update (Function.update s.l k (s.l 1)) 1 Pk else s.l
      some { l := l', logm := 2, third := l' 0 + l' 1 }
  else if sameComp E p Pk (s.l 0) then some { s with l := Function.update s.l k (Pk - s.l 0) }
  else if sameComp E p Pk (s.l 1) then some { s with l := Function.update s.l k (Pk - s.l 1) }
  else if sameComp E p Pk s.third then some { s with l := Function.update s.l k (Pk - s.third) }
  else none

/-- the loop on points in the non-cyclic case: the points with numbers `< k` have been processed -/
def ncLoop (E : Env A) (p : ℤ) (l : ℕ → A) : ℕ → Option (St A)
  | 0 => some ⟨l, 0, 0⟩
  | k + 1 => (ncLoop E p l k).bind (fun s => ncStep E p s k)

/-- the non-cyclic case of `gr1prime` (egr.cc:270-362) -/
def gr1nc (E : Env A) (p : ℤ) (l : ℕ → A) (npts : ℕ) : Option (ℕ × (ℕ → A)) :=
  (ncLoop E p l npts).map (fun s =>
    let l0 := if 0 < s.logm then Function.update s.l 0 (s.l 0 + s.l 0) else s.l
    let l1 := if 1 < s.logm then Function.update l0 1 (l0 1 + l0 1) else l0
    (2 ^ s.logm, l1))

/-- `while(!P1.has_good_reduction(p)) P1=P1-P0` (egr.cc:404); the first argument bounds the number of passages, `none` when it is used up -/
def subLoop (E : Env A) (p : ℤ) (P0 : A) : ℕ → A → Option A
  | 0, P1 => if E.good p P1 then some P1 else none
  | fuel + 1, P1 => if E.good p P1 then some P1 else subLoop E p P0 fuel (P1 - P0)

/-- the search for `u` (egr.cc:416-422); `Q = u*Q0` -/
def findU (E : Env A) (p : ℤ) (N : ℕ) (Q0 Q1 : A) : ℕ → ℕ → A → Option ℕ
  | 0, _, _ => none
  | fuel + 1, u, Q =>
    if 1 < Nat.gcd u N ∨ sameComp E p Q Q1 = false then findU E p N Q0 Q1 fuel (u + 1) (Q + Q0) else some u

/-- one passage of the loop in the cyclic case (egr.cc:375-439): the state is `m` and `Plist[0]`; returns the new state and the
new `Plist[j]` -/
def cycStep (E : Env A) (p : ℤ) (grp : List ℕ) (N : ℕ) (m : ℕ) (p0 p1 : A) : Option (ℕ × A × A) :=
  let k1 := orderCG E p p1 grp
  if k1 = 1 then some (m, p0, p1)
  else
    let n0 := if k1 > m then k1 else m
    let n1 := if k1 > m then m else k1
    let P0 := if k1 > m then p1 else p0
    let P1 := if k1 > m then p0 else p1
    if n0 % n1 = 0 then (subLoop E p P0 N P1).map (fun P1' => (n0, P0, P1'))
    else
      let g := Nat.gcd n0 n1
      let Q0 := ((n0 / g : ℕ) : ℤ) • P0
      let Q1 := ((n1 / g : ℕ) : ℤ) • P1
      (findU E p N Q0 Q1 N 1 Q0).map (fun (u : ℕ) =>
        let r := bezout ((u : ℤ) * n0) n1
        let g := r.1
        let a := r.2.1
        let b := r.2.2
        (((n0 * n1 : ℕ) : ℤ).tdiv g |>.toNat, b • P0 + a • P1, ((-(u : ℤ) * n0).tdiv g) • P0 + ((n1 : ℤ).tdiv g) • P1))

/-- the loop in the cyclic case (egr.cc:372-440): `k + 1` points have been processed -/
def cycLoop (E : Env A) (p : ℤ) (grp : List ℕ) (N : ℕ) (l : ℕ → A) : ℕ → Option (ℕ × (ℕ → A))
  | 0 => some (orderCG E p (l 0) grp, l)
  | k + 1 => (cycLoop E p grp N l k).bind (fun s =>
      (cycStep E p grp N s.1 (s.2 0) (s.2 (k + 1))).map (fun r =>
        (r.1, Function.update (Function.update s.2 0 r.2.1) (k + 1) r.2.2)))

/-- `gr1prime` (egr.cc:252-451): the index and the new list; `none` when the code reports an error or does not terminate -/
def gr1prime (E : Env A) (l : ℕ → A) (npts : ℕ) (p : ℤ) : Option (ℕ × (ℕ → A)) :=
  if npts = 0 then some (1, l)
  else
    let CG := componentGroup E p
    if 1 < CG.length then gr1nc E p l npts
    else if CG.headD 0 = 1 then some (1, l)
    else (cycLoop E p CG (CG.headD 0) l (npts - 1)).map (fun s => (s.1, Function.update s.2 0 ((s.1 : ℤ) • s.2 0)))

/-- `grprimes` (egr.cc:456-467) -/
def grprimes (E : Env A) (l : ℕ → A) (npts : ℕ) (plist : List ℤ) : Option (ℕ × (ℕ → A)) :=
  plist.foldl (fun s p => s.bind (fun s => (gr1prime E s.2 npts p).map (fun r => (s.1 * r.1, r.2)))) (some (1, l))

/-- `egr_subgroup` (egr.cc:472-482); `bad` are `the_bad_primes` -/
def egrSubgroup (E : Env A) (bad : List ℤ) (l : ℕ → A) (npts : ℕ) (realToo : Bool) : Option (ℕ × (ℕ → A)) :=
  if npts = 0 then some (1, l)
  else grprimes E l npts (if realToo && E.conncomp == 2 then bad ++ [0] else bad)

/-! ## The image of a list of points -/

/-- the number of the coset of `P` among the representatives, searching from the front (egr.cc:662-665) -/
def findCoset (E : Env A) (p : ℤ) (P : A) : List A → Option ℕ
  | [] => none
  | R :: Rs => if sameComp E p P R then some 0 else (findCoset E p P Rs).map (· + 1)

/-- the three images (egr.cc:651-654); `none` when the code would read past the end of `ims` -/
def ims (c : ℕ) : Option (ℤ × ℤ) := [((1 : ℤ), (0 : ℤ)), (0, 1), (1, 1)][c]?

/-- the non-cyclic case of `MapPointsToComponentGroup` (egr.cc:643-679): `reps` are the representatives found so far -/
def mapNc (E : Env A) (p : ℤ) : List A → List A → Option (List (ℤ × ℤ))
  | [], _ => some []
  | P :: Ps, reps =>
    if E.good p P then (mapNc E p Ps reps).map ((0, 0) :: ·)
    else match findCoset E p P reps with
      | some c => (ims c).bind (fun v => (mapNc E p Ps reps).map (v :: ·))
      | none => (ims reps.length).bind (fun v => (mapNc E p Ps (reps ++ [P])).map (v :: ·))

/-- the cyclic case of `MapPointsToComponentGroup` (egr.cc:613-642) for a group of order `n`.  The adjustment of signs
(egr.cc:623-641) is guarded by `m==3 || m==4` where `m` is the number of cyclic factors, 1 here, so it is never done. -/
def mapCyc (E : Env A) (p : ℤ) (grp : List ℕ) (Ps : List A) : List ℤ := Ps.map (fun P => imageCG E p P grp)

end Eclib.Egr
