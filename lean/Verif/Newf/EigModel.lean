import Mathlib.Data.Int.Init
import Mathlib.Data.List.Basic
import Mathlib.Algebra.BigOperators.Group.List.Basic

/-!
# Model of the lists of eigenvalues of a newform

newforms.cc: `less_ap`, `less_apvec` and the two comparison functions of newforms (37-85), `eiglist` (87-125),
`fixup_eigs`, `unfix_eigs`, `refix_eigs` (252-333), `aqlist` (1543-1562).

`aplist` is indexed by the primes in increasing order.  The variable `primevar pr` of the code is the argument `pr : ℕ → ℕ`,
the `i`-th prime; the theorems assume that the values read are the primes in order (C-claims on the prime table).  The lists are
walked through with iterators in the code and by recursion here.
-/

namespace Eclib.Newf

/-- the sign of an integer -/
def sgn (a : ℤ) : ℤ := if 0 < a then 1 else if a < 0 then -1 else 0

/-- `less_ap(a,b,old)` (newforms.cc:39-46) -/
def lessAp (a b : ℤ) (old : Bool) : ℤ :=
  if !old then sgn (b - a)
  else if a = b then 0
  else
    let s := sgn ((b.natAbs : ℤ) - a.natAbs)
    if s ≠ 0 then s else sgn (a - b)

/-- `less_apvec(v,w,old)` (newforms.cc:50-60); `none` when the code reads past the end of `w` -/
def lessApvec (old : Bool) : List ℤ → List ℤ → Option ℤ
  | [], _ => some 0
  | _ :: _, [] => none
  | v :: vs, w :: ws =>
    let s := lessAp v w old
    if s ≠ 0 then some s else lessApvec old vs ws

/-- `old_newform_comparer` (newforms.cc:66-72) on pairs (aqlist, aplist) -/
def oldLess (f g : List ℤ × List ℤ) : Option Bool := do
  let s ← lessApvec true f.1 g.1
  let s ← if s = 0 then lessApvec true f.2 g.2 else some s
  some (s == 1)

/-- `new_newform_comparer` (newforms.cc:79-84) -/
def newLess (f g : List ℤ × List ℤ) : Option Bool := do
  let s ← lessApvec false f.2 g.2
  some (s == 1)

/-- the loop of `fixup_eigs` (newforms.cc:261-271) from the `i`-th prime on, with `k` entries of `aqlist` not yet
set: the new `aplist` and the entries of `aqlist` set -/
def fixGo (n : ℕ) (pr : ℕ → ℕ) : ℕ → List ℤ → ℕ → List ℤ × List ℤ
  | _, [], _ => ([], [])
  | _, as, 0 => (as, [])
  | i, a :: as, k + 1 =>
    if pr i ∣ n then
      let r := fixGo n pr (i + 1) as k
      ((if pr i * pr i ∣ n then 0 else -a) :: r.1, a :: r.2)
    else
      let r := fixGo n pr (i + 1) as (k + 1)
      (a :: r.1, r.2)

/-- `fixup_eigs` (newforms.cc:252-298): the lists `aplist`, `aqlist` and the sign of the functional equation.
`plist` are the primes dividing the level, `wq q` the eigenvalue of `W_q` computed from the eigenvector
(newforms.cc:272-290, not modelled). -/
def fixupEigs (n : ℕ) (pr : ℕ → ℕ) (plist : List ℕ) (wq : ℕ → ℤ) (ap : List ℤ) : List ℤ × List ℤ × ℤ :=
  let r := fixGo n pr 0 ap plist.length
  let aq := r.2 ++ (plist.drop r.2.length).map wq
  (r.1, aq, aq.foldl (· * ·) (-1))

/-- the loop of `unfix_eigs` (newforms.cc:308-313) -/
def unfixGo (n : ℕ) (pr : ℕ → ℕ) : ℕ → List ℤ → List ℤ → List ℤ
  | _, [], _ => []
  | _, as, [] => as
  | i, a :: as, q :: qs =>
    if pr i ∣ n then q :: unfixGo n pr (i + 1) as qs else a :: unfixGo n pr (i + 1) as (q :: qs)

/-- `unfix_eigs` (newforms.cc:302-314) -/
def unfixEigs (n : ℕ) (pr : ℕ → ℕ) (ap aq : List ℤ) : List ℤ := unfixGo n pr 0 ap aq

/-- the loop of `refix_eigs` (newforms.cc:322-332); `k` is `np - ip` -/
def refixGo (n : ℕ) (pr : ℕ → ℕ) : ℕ → List ℤ → ℕ → List ℤ
  | _, [], _ => []
  | _, as, 0 => as
  | i, a :: as, k + 1 =>
    if pr i ∣ n then (if pr i * pr i ∣ n then 0 else -a) :: refixGo n pr (i + 1) as k
    else a :: refixGo n pr (i + 1) as (k + 1)

/-- `refix_eigs` (newforms.cc:317-333) -/
def refixEigs (n : ℕ) (pr : ℕ → ℕ) (np : ℕ) (ap : List ℤ) : List ℤ := refixGo n pr 0 ap np

/-- the entries of `aplist` at the primes not dividing the level (newforms.cc:105-109) -/
def goodAp (n : ℕ) (pr : ℕ → ℕ) : ℕ → List ℤ → List ℤ
  | _, [] => []
  | i, a :: as => if pr i ∣ n then goodAp n pr (i + 1) as else a :: goodAp n pr (i + 1) as

/-- `eiglist(f, 1)` (newforms.cc:98-110): a vector of the size of `aplist`; `none` when the code writes past its end;
entries not written are 0 -/
def eiglistOld (n : ℕ) (pr : ℕ → ℕ) (ap aq : List ℤ) : Option (List ℤ) :=
  let l := aq ++ goodAp n pr 0 ap
  if l.length ≤ ap.length then some (l ++ List.replicate (ap.length - l.length) 0) else none

/-- `eiglist(f, 0)` (newforms.cc:111-120) -/
def eiglistNew (n : ℕ) (pr : ℕ → ℕ) (ap aq : List ℤ) : List ℤ := unfixGo n pr 0 ap aq

/-- `aqlist(aplist, N)` (newforms.cc:1543-1562) with `k` entries to be set; `none` when the code reads past the end of `aplist`.
In the code the loop also stops at the end of the prime table. -/
def aqGo (n : ℕ) (pr : ℕ → ℕ) : ℕ → List ℤ → ℕ → Option (List ℤ)
  | _, _, 0 => some []
  | _, [], _ + 1 => none
  | i, a :: as, k + 1 =>
    if pr i ∣ n then (aqGo n pr (i + 1) as k).map (a :: ·) else aqGo n pr (i + 1) as (k + 1)

/-- `aqlist(aplist, N)` (newforms.cc:1543-1562) -/
def aqlistOf (n : ℕ) (pr : ℕ → ℕ) (np : ℕ) (ap : List ℤ) : Option (List ℤ) := aqGo n pr 0 ap np

end Eclib.Newf
