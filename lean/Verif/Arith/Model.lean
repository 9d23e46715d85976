import Mathlib.Data.Int.GCD
import Mathlib.Tactic.Ring
import Mathlib.Tactic.Linarith

/-!
# Model of the elementary `long` arithmetic of eclib (libsrc/arith.cc, libsrc/eclib/arith.h)

C's `long` is modelled by unbounded `Int`; C's `/` and `%` (truncating) by
`Int.tdiv` and `Int.tmod`.  Absence of overflow is therefore a precondition of
the correspondence; where an algorithm keeps its intermediates within the size of its inputs this
is proved as a theorem of its own (`bezout_bounded`).
-/

namespace Eclib.Arith

/-- The loop of `gcd`: `while (b!=0) {c=a%b; a=b; b=c;} return abs(a);`
(libsrc/arith.cc:332-333). -/
def gcdLoop (a b : Int) : Int :=
  if _h : b = 0 then |a| else gcdLoop b (a.tmod b)
termination_by b.natAbs
decreasing_by
  rw [Int.natAbs_tmod]
  exact Nat.mod_lt _ (Int.natAbs_pos.mpr _h)

/-- `long gcd(long a, long b)` (libsrc/arith.cc:328-334). -/
def gcd (a b : Int) : Int :=
  if a = 1 ∨ b = 1 then 1
  else if a = 0 then |b|
  else gcdLoop a b

/-- `long lcm(long a, long b)` (libsrc/arith.cc:344-349). -/
def lcm (a b : Int) : Int :=
  let g := gcd a b
  if g = 0 then 0 else a * (b.tdiv g)

/-- State of the loop of `bezout`: the variables `a,b,x,oldx,y,oldy`
(libsrc/arith.cc:352). -/
structure BezoutState where
  a : Int
  b : Int
  x : Int
  oldx : Int
  y : Int
  oldy : Int
deriving Repr, DecidableEq

/-- One iteration of the loop of `bezout` (libsrc/arith.cc:354-357). -/
def BezoutState.step (s : BezoutState) : BezoutState :=
  let q := s.a.tdiv s.b
  { a := s.b, b := s.a - q * s.b
    oldx := s.x, x := s.oldx - q * s.x
    oldy := s.y, y := s.oldy - q * s.y }

/-- The whole loop of `bezout` (libsrc/arith.cc:353-358). -/
def BezoutState.run (s : BezoutState) : BezoutState :=
  if _h : s.b = 0 then s else s.step.run
termination_by s.b.natAbs
decreasing_by
  have : s.step.b = s.a.tmod s.b := by
    simp only [BezoutState.step]
    have := Int.tmod_add_mul_tdiv s.a s.b
    linarith [mul_comm s.b (s.a.tdiv s.b)]
  rw [this, Int.natAbs_tmod]
  exact Nat.mod_lt _ (Int.natAbs_pos.mpr _h)

/-- Initial state (libsrc/arith.cc:352). -/
def BezoutState.init (aa bb : Int) : BezoutState :=
  { a := aa, b := bb, x := 0, oldx := 1, y := 1, oldy := 0 }

/-- `long bezout(long aa, long bb, long& xx, long& yy)`: returns `(g, xx, yy)`
(libsrc/arith.cc:351-361).  The `int` version (arith.cc:503-513) is the same text. -/
def bezout (aa bb : Int) : Int × Int × Int :=
  let s := (BezoutState.init aa bb).run
  if s.a < 0 then (-s.a, -s.oldx, -s.oldy) else (s.a, s.oldx, s.oldy)

/-- `long invmod(long a, long p)` (libsrc/arith.cc:363-372); the message printed in the
non-coprime case is not modelled. -/
def invmod (a p : Int) : Int :=
  let r := bezout a p
  if r.1 = 1 then r.2.1 else 0

/-- `long rounded_division(long a, long b)`, halves go up (libsrc/arith.cc:265-271). -/
def roundedDivision (a b : Int) : Int :=
  let r := a.tmod b
  let q := a.tdiv b
  let r2 := 2 * r
  if r2 < -b then q - 1 else if r2 ≥ b then q + 1 else q

/-- `long mod(long a, long b)` (libsrc/arith.cc:273-279).  `b>>1` is floor division by 2;
division by `b = 0` is undefined behaviour in C and is excluded by hypothesis wherever this
is used. -/
def mod (a b : Int) : Int :=
  let b := if b < 0 then -b else b
  let c := if a ≥ 0 then a.tmod b else b - (-a).tmod b
  if c > b / 2 then c - b else c

/-- `long posmod(long a, long b)` (libsrc/arith.cc:302-307). -/
def posmod (a b : Int) : Int :=
  let c := a.tmod b
  if c < 0 then c + b else c

/-- The loop of `val`: `while (n%f==0) {e++; n/=f;}` (libsrc/arith.cc:498).
The guard `1 < f ∧ 0 < n` is what the early return of `val` (arith.cc:495) guarantees; it makes
the recursion well founded. -/
def valLoop (f n e : Nat) : Nat :=
  if _h : 1 < f ∧ 0 < n ∧ n % f = 0 then valLoop f (n / f) (e + 1) else e
termination_by n
decreasing_by exact Nat.div_lt_self _h.2.1 _h.1

/-- `long val(long factor, long number)` (libsrc/arith.cc:492-500); `99999` is the code's
error value. -/
def val (factor number : Int) : Nat :=
  let n := number.natAbs
  let f := factor.natAbs
  if n = 0 ∨ f < 2 then 99999 else valLoop f n 0

/-- `long chi2(long a)` (libsrc/arith.cc:515-518). -/
def chi2 (a : Int) : Int :=
  match posmod a 8 with
  | 1 => 1 | 3 => -1 | 5 => -1 | 7 => 1 | _ => 0

/-- `long chi4(long a)` (libsrc/arith.cc:543-546). -/
def chi4 (a : Int) : Int :=
  match posmod a 4 with
  | 1 => 1 | 3 => -1 | _ => 0

/-- `long hilbert2(long a, long b)` (libsrc/arith.cc:548-554). -/
def hilbert2 (a b : Int) : Int :=
  match posmod a 4, posmod b 4 with
  | 1, 1 => 1 | 1, 3 => 1 | 3, 1 => 1 | 3, 3 => -1 | _, _ => 0

/-- `while (!(aa%4)) {aa/=4;}` (libsrc/arith.cc:563).  For `aa = 0` the C loop never ends;
`legLoop` reports that case separately, so here `0` is simply returned. -/
def strip4 (aa : Int) : Int :=
  if _h : aa ≠ 0 ∧ aa.tmod 4 = 0 then strip4 (aa.tdiv 4) else aa
termination_by aa.natAbs
decreasing_by
  rw [Int.natAbs_tdiv]
  exact Nat.div_lt_self (Int.natAbs_pos.mpr _h.1) (by decide)

theorem strip4_natAbs_le (aa : Int) : (strip4 aa).natAbs ≤ aa.natAbs := by
  induction aa using strip4.induct with
  | case1 aa h ih =>
    rw [strip4, dif_pos h]
    refine ih.trans ?_
    rw [Int.natAbs_tdiv]
    exact Nat.div_le_self _ _
  | case2 aa h => rw [strip4, dif_neg h]

/-- One pass of the body of `leg` after `aa = aa % bb` (libsrc/arith.cc:562-566):
returns the new `aa` (an odd number, when the input is non-zero) and the new `ans`. -/
def legBody (aa bb ans : Int) : Int × Int :=
  let (aa, ans) := if aa < 0 then (-aa, ans * chi4 bb) else (aa, ans)
  let aa := strip4 aa
  let (aa, ans) := if aa.tmod 2 = 0 then (aa.tdiv 2, ans * chi2 bb) else (aa, ans)
  (aa, ans * hilbert2 aa bb)

theorem legBody_natAbs_le (aa bb ans : Int) : (legBody aa bb ans).1.natAbs ≤ aa.natAbs := by
  unfold legBody
  have key : ∀ x : Int, x.natAbs = aa.natAbs →
      (if (strip4 x).tmod 2 = 0 then (strip4 x).tdiv 2 else strip4 x).natAbs ≤ aa.natAbs := by
    intro x hx
    have h1 := strip4_natAbs_le x
    split
    · rw [Int.natAbs_tdiv]
      exact (Nat.div_le_self _ _).trans (h1.trans hx.le)
    · exact h1.trans hx.le
  by_cases h : aa < 0
  · have := key (-aa) (by simp)
    simp only [h, if_true]
    split <;> simp_all
  · have := key aa rfl
    simp only [h, if_false]
    split <;> simp_all

/-- The loop of `leg` (libsrc/arith.cc:560-568).  `none` means that the C code does not terminate
(`aa = 0` inside the loop, where `while (!(aa%4))` spins). -/
def legLoop (aa bb ans : Int) : Option Int :=
  if _h : bb > 1 then
    let a1 := aa.tmod bb
    if a1 = 0 then none
    else
      let r := legBody a1 bb ans
      legLoop bb r.1 r.2
  else some ans
termination_by bb.toNat
decreasing_by
  have h1 := legBody_natAbs_le (aa.tmod bb) bb ans
  rw [Int.natAbs_tmod] at h1
  have h2 : aa.natAbs % bb.natAbs < bb.natAbs := Nat.mod_lt _ (by omega)
  omega

/-- `long leg(long a, long b)` (libsrc/arith.cc:556-570). -/
def leg (a b : Int) : Option Int := legLoop a b 1

/-- `long legendre(long a, long b)` (libsrc/arith.cc:572-575). -/
def legendre (a b : Int) : Option Int :=
  if gcd a b = 1 ∧ b.tmod 2 ≠ 0 then leg a b else some 0

/-- `long val2(unsigned long z)` (libsrc/arith.cc:635-640).  For `z = 0` the C loop does not end;
all calls in `kronecker` have `z ≠ 0`. -/
def val2 (z : Nat) : Nat :=
  if _h : z ≠ 0 ∧ z % 2 = 0 then val2 (z / 2) + 1 else 0
termination_by z
decreasing_by exact Nat.div_lt_self (Nat.pos_of_ne_zero _h.1) (by decide)

/-- The test `labs((x&7)-4) == 1`, i.e. `x = 3, 5 (mod 8)` (libsrc/arith.cc:615,625).
`x & 7` on a two's complement `long` is `x.emod 8`. -/
def bit8 (x : Int) : Bool := (x.emod 8 - 4).natAbs == 1

/-- The loop of `kronecker` (libsrc/arith.cc:620-631): variables `x1, y, s`. -/
def kronLoop (x1 y : Nat) (s : Int) : Int :=
  if _h : x1 ≠ 0 then
    let r := val2 x1
    let s := if r ≠ 0 ∧ r % 2 = 1 ∧ bit8 y then -s else s
    let x1' := x1 / 2 ^ r
    let s := if (y / 2) % 2 = 1 ∧ (x1' / 2) % 2 = 1 then -s else s
    kronLoop (y % x1') x1' s
  else if y = 1 then s else 0
termination_by x1
decreasing_by
  have hpos : 0 < x1 / 2 ^ val2 x1 := by
    have : 2 ^ val2 x1 ∣ x1 := by
      clear s
      induction x1 using val2.induct with
      | case1 z h ih =>
        rw [val2, dif_pos h, pow_succ]
        have h2 : 2 ∣ z := Nat.dvd_of_mod_eq_zero h.2
        obtain ⟨k, rfl⟩ := h2
        have hk : k ≠ 0 := by rintro rfl; exact h.1 rfl
        rw [Nat.mul_div_cancel_left k (by decide)] at ih ⊢
        rw [mul_comm]
        exact Nat.mul_dvd_mul_left 2 (ih hk)
      | case2 z h => rw [val2, dif_neg h]; simp
    exact Nat.div_pos (Nat.le_of_dvd (Nat.pos_of_ne_zero _h) this) (by positivity)
  exact (Nat.mod_lt _ hpos).trans_le (Nat.div_le_self _ _)

/-- `long kronecker(long x, long y)` (libsrc/arith.cc:601-633). -/
def kronecker (x y : Int) : Int :=
  if y = 0 then (if x.natAbs = 1 then 1 else 0)
  else
    let s : Int := if y < 0 ∧ x < 0 then -1 else 1
    let y := y.natAbs
    let r := val2 y
    if r ≠ 0 ∧ x.emod 2 = 0 then 0
    else
      let s := if r ≠ 0 ∧ r % 2 = 1 ∧ bit8 x then -s else s
      let y := if r ≠ 0 then y / 2 ^ r else y
      let x1 := x.tmod y
      let x1 := if x1 < 0 then x1 + y else x1
      kronLoop x1.toNat y s

/-- The innermost loops of the divisor-list functions (libsrc/arith.cc:203-206):
`for j<e for k<nd: dlist[nd*(j+1)+k] = p*dlist[nd*j+k]`.
Simplification: the blocks `dlist[nd*j .. nd*(j+1)-1]` are written as lists; block `j+1` is `p`
times block `j`. -/
def blocks {α : Type} [Mul α] (p : α) : Nat → List α → List α
  | 0, l => l
  | e + 1, l => l ++ blocks p e (l.map (p * ·))

/-- `posdivs(long a, const vector<long>& plist)` (libsrc/arith.cc:193-209). -/
def posdivs (a : Int) (plist : List Int) : List Int :=
  plist.foldl (fun dl p => blocks p (val p a) dl) [1]

/-- `alldivs(long a, const vector<long>& plist)` (libsrc/arith.cc:211-227). -/
def alldivs (a : Int) (plist : List Int) : List Int :=
  plist.foldl (fun dl p => blocks p (val p a) dl) [1, -1]

/-- `sqdivs(long a, const vector<long>& plist)` (libsrc/arith.cc:229-243). -/
def sqdivs (a : Int) (plist : List Int) : List Int :=
  plist.foldl (fun dl p => blocks p (val p a / 2) dl) [1]

/-- `sqfreedivs(long a, const vector<long>& plist)` (libsrc/arith.cc:245-259): the exponent is
the constant 1. -/
def sqfreedivs (_a : Int) (plist : List Int) : List Int :=
  plist.foldl (fun dl p => blocks p 1 dl) [1]

end Eclib.Arith
