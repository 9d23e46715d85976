import Mathlib.Data.Nat.Basic

/-!
# Model of the prime table of `arith.cc` (class `primeclass`, class `primevar`, `pdivs`)

The byte array is a function from indices to values together with its number of cells; a read or
a write outside the array is the outcome `none`.  Pointers are indices into the array.  `long` is
`Nat` here: all quantities are non-negative for a non-negative bound; overflow of `long` is not
modelled (the array would not fit in memory).  Bytes are reduced modulo 256 when stored.
-/

namespace Eclib.Primes

/-- contents of a byte array -/
abbrev Mem := Nat → Nat

/-- store `v` (as an `unsigned char`) at `i` -/
def Mem.put (p : Mem) (i v : Nat) : Mem := fun j => if j = i then v % 256 else p j

/-- `do … while (*++q)` (arith.cc:65, 71): the least index after `q` with a zero byte; `cells` is
the size of the array -/
def skip (p : Mem) (cells q : Nat) : Option Nat :=
  if _h : q + 1 < cells then
    if p (q + 1) ≠ 0 then skip p cells (q + 1) else some (q + 1)
  else none
termination_by cells - q

/-- `for(s=r;s<fin;s+=k) *s=1;` (arith.cc:66) -/
def mark (p : Mem) (fin k s : Nat) : Mem :=
  if _h : s < fin ∧ 0 < k then mark (p.put s 1) fin k (s + k) else p
termination_by fin - s

/-- the value of `r` after the loop `do {r+=k; k+=2; r+=k;} while (*++q)` has gone round `n` times,
and of `k` -/
def bump : Nat → Nat × Nat → Nat × Nat
  | 0, rk => rk
  | n + 1, (r, k) => bump n (r + k + (k + 2), k + 2)

/-- the sieve (arith.cc:63-67).  The `do` loop advances `q` until a zero byte and `r`, `k` once for
each step of `q`. -/
def sieve (cells fin : Nat) (p : Mem) (r q k : Nat) : Option Mem :=
  if _h : r < fin then
    match _hs : skip p cells q with
    | none => none
    | some q' =>
      let rk := bump (q' - q) (r, k)
      if _hq : q < q' ∧ q' < cells then
        sieve cells fin (mark p fin rk.2 rk.1) rk.1 q' rk.2
      else none
  else some p
termination_by cells - q

/-- the second loop (arith.cc:69-75): differences written over the beginning of the array; gives
the array, `r` and `s` -/
def compress (cells fin : Nat) (p : Mem) (r s q : Nat) : Option (Mem × Nat × Nat) :=
  match skip p cells q with
  | none => none
  | some q' =>
    if q' ≥ fin then some (p, r, s)
    else if _h : q < q' ∧ q' < cells ∧ r < cells then
      compress cells fin (p.put r ((q' - s) * 2)) (r + 1) q' q'
    else none
termination_by cells - q

/-- the table: `pdiffptr`, `NPRIMES`, `BIGGESTPRIME` -/
structure Table where
  /-- `pdiffptr`, of `NPRIMES+1` cells -/
  diff : Mem
  /-- `NPRIMES` -/
  nprimes : Nat
  /-- `BIGGESTPRIME` -/
  biggest : Nat

/-- `primeclass::init(long maxnum)` (arith.cc:54-91) -/
def init (maxnum : Nat) : Option Table :=
  let size := (maxnum + 257) / 2
  let cells := size + 1
  match sieve cells size (fun _ => 0) 0 0 1 with
  | none => none
  | some p =>
    if cells ≤ 1 then none
    else
      match compress cells size ((p.put 0 2).put 1 1) 2 1 1 with
      | none => none
      | some (p', r, s) =>
        if r < cells then some ⟨p'.put r 0, r, s * 2 + 1⟩ else none

/-- the mutable part of `primeclass`: `p_aptr - pdiffptr`, `p_ind`, `p_val` (arith.h:39-41) -/
structure Cur where
  /-- `p_aptr - pdiffptr` -/
  aptr : Nat
  /-- `p_ind` -/
  ind : Nat
  /-- `p_val` -/
  val : Nat
  deriving DecidableEq, Repr

/-- `primeclass::reset` (arith.cc:98) -/
def Cur.reset : Cur := ⟨0, 0, 0⟩

/-- `primeclass::at_end` (arith.cc:99) -/
def atEnd (t : Table) (c : Cur) : Bool := t.diff c.aptr == 0

/-- `primeclass::advance` (arith.cc:100-105) -/
def advance (t : Table) (c : Cur) : Cur × Bool :=
  if t.diff c.aptr ≠ 0 then (⟨c.aptr + 1, c.ind + 1, c.val + t.diff c.aptr⟩, true) else (c, false)

/-- the loop of `primeclass::number` (arith.cc:114-117) -/
def numberLoop (t : Table) (n : Nat) (c : Cur) : Cur :=
  if _h : c.ind < n then
    match _ha : advance t c with
    | (c', true) => if _h' : c.ind < c'.ind then numberLoop t n c' else c'
    | (c', false) => c'
  else c
termination_by n - c.ind

/-- `primeclass::number` (arith.cc:107-123); the new position and the value -/
def number (t : Table) (c : Cur) (n : Nat) : Cur × Nat :=
  let c := if n < c.ind then Cur.reset else c
  let c := numberLoop t n c
  (c, c.val)

/-- the loop of `primeclass::getfirst` (arith.cc:131-135): `m` rounds to go -/
def getfirstLoop (t : Table) : Nat → Cur → List Nat → Cur × List Nat
  | 0, c, ans => (c, ans)
  | m + 1, c, ans =>
    match advance t c with
    | (c', true) => getfirstLoop t m c' (ans ++ [c'.val])
    | (c', false) => (c', ans ++ [c'.val])

/-- `primeclass::getfirst` (arith.cc:125-141) -/
def getfirst (t : Table) (n : Nat) : Cur × List Nat := getfirstLoop t n Cur.reset []

/-- `primevar` (arith.h:67-88); `ndiff` is the index into `pdiffptr` -/
structure Var where
  /-- current value -/
  val : Nat
  /-- current index -/
  ind : Nat
  /-- `ndiff - pdiffptr` -/
  ndiff : Nat
  /-- `maxindex` -/
  maxindex : Nat
  deriving DecidableEq, Repr

/-- `primevar(long max, long i)` (arith.h:75-77); it moves the table's own position -/
def Var.new (t : Table) (c : Cur) (max i : Nat) : Cur × Var :=
  let cn := number t c i
  (cn.1, ⟨cn.2, i, i, max⟩)

/-- `operator++` (arith.h:81-82) -/
def Var.next (t : Table) (v : Var) : Var :=
  if v.ind ≤ v.maxindex then { v with ind := v.ind + 1, val := v.val + t.diff v.ndiff, ndiff := v.ndiff + 1 }
  else { v with ind := v.ind + 1 }

/-- `ok()` (arith.h:83) -/
def Var.ok (v : Var) : Bool := v.ind ≤ v.maxindex

/-- the values seen by the loop `for(primevar pr(n); pr.ok(); pr++) {p=pr; …}` (arith.h:91-104) -/
def Var.collect (t : Table) (v : Var) : List Nat :=
  if _h : v.ind ≤ v.maxindex then v.val :: Var.collect t (v.next t) else []
termination_by v.maxindex + 1 - v.ind
decreasing_by
  unfold Var.next
  rw [if_pos _h]
  simp only
  omega

/-- `while ((long)pr<p) {++pr; ip++;}` of `prime_pi` (arith.cc:148); `none` when it runs for ever
(fuel is an upper bound of the number of rounds) -/
def primePiLoop (t : Table) (p : Nat) : Nat → Var → Nat → Option Nat
  | 0, _, _ => none
  | f + 1, v, ip => if v.val < p then primePiLoop t p f (v.next t) (ip + 1) else some ip

/-- `while (a%p==0) a/=p;` (arith.cc:181) -/
def divOut (p a : Nat) : Nat :=
  if _h : 1 < p ∧ 0 < a ∧ a % p = 0 then divOut p (a / p) else a
termination_by a
decreasing_by exact Nat.div_lt_self _h.2.1 _h.1

/-- the loop of `pdivs` (arith.cc:175-187) -/
def pdivsLoop (t : Table) (a : Nat) (v : Var) (plist : List Nat) : List Nat × Nat :=
  if _h : 1 < a ∧ v.ind ≤ v.maxindex then
    let p := v.val
    if a % p = 0 then pdivsLoop t (divOut p a) (v.next t) (plist ++ [p])
    else if p * p > a then (plist ++ [a], 1)
    else pdivsLoop t a (v.next t) plist
  else (plist, a)
termination_by v.maxindex + 1 - v.ind
decreasing_by
  all_goals
    unfold Var.next
    rw [if_pos _h.2]
    simp only
    omega

/-- `pdivs(long aa)` (arith.cc:171-191), `a = |aa|` -/
def pdivs (t : Table) (c : Cur) (aa : Int) : List Nat :=
  let la := pdivsLoop t aa.natAbs (Var.new t c t.nprimes 1).2 []
  if 1 < la.2 then la.1 ++ [la.2] else la.1

/-- the loop of `primdiv` (arith.cc:158-163); `0` when no divisor was found -/
def primdivLoop (t : Table) (a : Nat) (v : Var) : Nat :=
  if _h : v.ind ≤ v.maxindex then
    let q := v.val
    if a % q = 0 then q
    else if q * q > a then a
    else primdivLoop t a (v.next t)
  else 0
termination_by v.maxindex + 1 - v.ind
decreasing_by
  unfold Var.next
  rw [if_pos _h]
  simp only
  omega

/-- `primdiv(long aa)` (arith.cc:153-168) -/
def primdiv (t : Table) (c : Cur) (aa : Int) : Nat :=
  let p := primdivLoop t aa.natAbs (Var.new t c t.nprimes 1).2
  if p = 0 then aa.natAbs else p

end Eclib.Primes
