import Verif.Arith.Model
import Mathlib.NumberTheory.PrimeCounting

/-!
# Model of libsrc/oldforms.cc: the oldclasses and their multiplicities

Simplifications: the newforms of the levels `d` (read from files or computed) are given by a function `data`; `prime_pi(p)` is the number of
primes below `p` (proved for the code's version in C48); the shift `1<<k` is not limited to 31 bits (a level has fewer primes).
-/

namespace Eclib.Old

/-- what is used of a newform of level `d`: `aqlist` (eigenvalues of the `W_q` for the primes `q ∣ d`) and `aplist` -/
structure Form where
  aqs : List Int
  aps : List Int
deriving DecidableEq, Repr

/-- the class `newforms` for a level `d`: `nflist` and `nap` (newforms.h) -/
structure OldData where
  forms : List Form
  nap : Nat
deriving DecidableEq, Repr

/-- one oldclass: `oldformap[i]`, `oldclassdims[i]`, `oldlevels[i]` (oldforms.h:38-39) -/
structure OldClass where
  ap : List Int
  dim : Int
  level : Nat
deriving DecidableEq, Repr

/-- `prime_pi` (libsrc/arith.cc:144-150) -/
def primePi (p : Nat) : Nat := Nat.count Nat.Prime p

/-- `if(ip<oldnap) nextoldformap[ip] = v` (libsrc/oldforms.cc:197-200, 207-210); `none` if the list is shorter than `nap` -/
def setAp (ap : List Int) (oldnap ip : Nat) (v : Int) : Option (List Int) :=
  if ip < oldnap then (if ip < ap.length then some (ap.set ip v) else none) else some ap

/-- `if(::divides(p,d)) aq = *aqj++; else aq=1;` (libsrc/oldforms.cc:191-194); `none` at the end of the list -/
def nextAq (d p : Nat) (aqs : List Int) : Option (Int × List Int) :=
  if p ∣ d then (match aqs with
    | [] => none
    | aq :: rest => some (aq, rest))
  else some (1, aqs)

/-- `xmult` (libsrc/oldforms.cc:213-221) -/
def xmult (d p beta : Nat) (aq : Int) (bit : Bool) : Int :=
  let x : Int := if beta % 2 = 1 then ((beta : Int) + 1) / 2 else
    (beta : Int) / 2 + 1 - (if p ∣ d ∧ aq = -1 then 1 else 0)
  if bit then x else 1 + beta - x

/-- the loop over the primes of the level for the class `c` (libsrc/oldforms.cc:186-224); the list has the primes with the exponents
`betalist` -/
def classLoop (d oldnap c : Nat) : List (Nat × Nat) → List Int → Nat → Int → List Int → Option (List Int × Int)
  | [], _, _, mult, ap => some (ap, mult)
  | (p, beta) :: rest, aqs, j, mult, ap =>
    (nextAq d p aqs).bind (fun (r : Int × List Int) =>
      if beta = 0 then
        (setAp ap oldnap (primePi p) r.1).bind (fun (ap' : List Int) => classLoop d oldnap c rest r.2 j mult ap')
      else
        let bit := c.testBit j
        (setAp ap oldnap (primePi p) (if bit then 1 else -1)).bind (fun (ap' : List Int) =>
          classLoop d oldnap c rest r.2 (j + 1) (mult * xmult d p beta r.1 bit) ap'))

/-- the loop over the classes `c = 0, …, 2^k - 1` of one form (libsrc/oldforms.cc:180-232); `nextoldformap` is kept from one class to
the next -/
def classesLoop (d oldnap : Nat) (betas : List (Nat × Nat)) (aqs : List Int) : List Nat → List Int → Option (List OldClass)
  | [], _ => some []
  | c :: cs, ap =>
    (classLoop d oldnap c betas aqs 0 1 ap).bind (fun (r : List Int × Int) =>
      (classesLoop d oldnap betas aqs cs r.1).map (fun (l : List OldClass) =>
        if r.2 > 0 then ⟨r.1, r.2, d⟩ :: l else l))

/-- the loop over the forms (libsrc/oldforms.cc:172-233) -/
def formsLoop (d oldnap : Nat) (betas : List (Nat × Nat)) (k : Nat) : List Form → Option (List OldClass)
  | [] => some []
  | f :: fs =>
    (classesLoop d oldnap betas f.aqs (List.range (2 ^ k)) f.aps).bind (fun (l : List OldClass) =>
      (formsLoop d oldnap betas k fs).map (fun (l' : List OldClass) => l ++ l'))

/-- `betalist` (libsrc/oldforms.cc:162-167) -/
def betaList (plist : List Nat) (m : Nat) : List (Nat × Nat) := plist.map (fun q => (q, Arith.val q m))

/-- `getoldclasses` (libsrc/oldforms.cc:142-236) -/
def getOldClasses (n d : Nat) (plist : List Nat) (data : Nat → OldData) : Option (List OldClass) :=
  if d > 10 ∧ n > d then
    let betas := betaList plist (n / d)
    let k := (betas.filter (fun b => b.2 > 0)).length
    formsLoop d (data d).nap betas k (data d).forms
  else some []

/-- the constructor (libsrc/oldforms.cc:125-140): the list of all oldclasses -/
def oldLoop (n : Nat) (plist : List Nat) (data : Nat → OldData) : List Nat → Option (List OldClass)
  | [] => some []
  | M :: Ms =>
    if M < 11 ∨ M = n then oldLoop n plist data Ms
    else (getOldClasses n M plist data).bind (fun (l : List OldClass) => (oldLoop n plist data Ms).map (fun (l' : List OldClass) => l ++ l'))

/-- `totalolddim` (libsrc/oldforms.cc:139) -/
def totalOldDim (l : List OldClass) : Int := (l.map OldClass.dim).sum

/-- `startswith(a,b,b.size())` (eclib/templates.h:112-116): `std::equal` stops at the first difference; `none` when it reads past the end of
`a` -/
def startsWith : List Int → List Int → Option Bool
  | _, [] => some true
  | [], _ :: _ => none
  | x :: a, y :: b => if x == y then startsWith a b else some false

/-- `dimoldpart` (libsrc/oldforms.cc:246-254) -/
def dimOldPart (plusflag : Bool) (l : List OldClass) (ap : List Int) : Option Int :=
  if ap.length = 0 then some 0
  else (l.foldlM (fun (acc : Int) (c : OldClass) =>
    (startsWith c.ap ap).map (fun (b : Bool) => if b then acc + c.dim else acc)) 0).map (fun (a : Int) => if plusflag then a else a * 2)

end Eclib.Old
