import Mathlib.Algebra.Group.Basic
import Mathlib.Algebra.Module.Basic
import Mathlib.Data.Int.Sqrt
import Mathlib.Data.List.Sort
import Verif.Marith.Model
import Verif.Pmod.Model

/-!
# Model of the algorithms of pointsmod.cc: baby-step-giant-step, orders, relations, merging

The operators `+`, `-`, `n*P`, `==` of pointmodq are the operations of an abelian group `G`
(`C65_group_law` proves that those of the code are the operations of `E(F_q)`); `key` is
`LiftGF(P.get_x())`.  Two functions are library calls, given as arguments: `pdivs` (the prime
divisors of an integer) and `posdivs` (its positive divisors).
-/

namespace Eclib.Pmod

variable {G : Type} [AddCommGroup G] [DecidableEq G] {κ : Type} [DecidableEq κ]

/-! ### my_bg_algorithm -/

/-- the `do ... while` loop for intervals of length less than 30 (pointsmod.cc:489-495) -/
def bgSmall (P Q : G) (upper : ℤ) (H : G) (h : ℤ) : ℤ :=
  let H := H + P
  let h' := h + 1
  if H = Q then h'
  else if h' ≤ upper then bgSmall P Q upper H h'
  else -1
termination_by (upper - h).toNat
decreasing_by omega

/-- the table `HT` of type `map<bigint,long>`: `HT[k]=i` puts a new entry in front, `HT.find(k)` is
`List.lookup`, which sees the latest entry -/
abbrev Tab (κ : Type) := List (κ × ℤ)

/-- the baby steps (pointsmod.cc:515-531): either a solution `i` or the final `H` and the table -/
def babySteps (key : G → κ) (P H2 : G) (nb : ℤ) (i : ℤ) (H : G) (HT : Tab κ) : ℤ ⊕ G × Tab κ :=
  if i ≤ nb then
    let H := H + P
    if H = H2 then .inl i
    else babySteps key P H2 nb (i + 1) H (if H ≠ 0 then (key H, i) :: HT else HT)
  else .inr (H, HT)
termination_by (nb + 1 - i).toNat
decreasing_by omega

/-- the giant steps (pointsmod.cc:547-577) -/
def giantSteps (key : G → κ) (P H : G) (HT : Tab κ) (lower upper step ng : ℤ) (j : ℤ) (H2 : G) : ℤ :=
  if j ≤ ng then
    if H2 = 0 then
      let h := lower + j * step
      if h ≤ upper then h else -1
    else
      match HT.lookup (key H2) with
      | some i =>
        if i • P = H2 then
          let h := lower + i + j * step
          if h ≤ upper then h else -1
        else giantSteps key P H HT lower upper step ng (j + 1) (H2 - H)
      | none => giantSteps key P H HT lower upper step ng (j + 1) (H2 - H)
  else -1
termination_by (ng + 1 - j).toNat
decreasing_by all_goals omega

/-- `MAX_BG_STEPS` (pointsmod.cc:440) -/
def maxBgSteps : ℤ := 3000000

/-- `my_bg_algorithm` (pointsmod.cc:447-578). The test that the two points are on the same curve is
left out: they are elements of one group. -/
def bg (key : G → κ) (P Q : G) (lower upper : ℤ) : ℤ :=
  if P = 0 ∧ Q ≠ 0 then -1
  else if lower = 0 ∧ Q = 0 then 0
  else if lower < 0 ∨ upper < lower then -1
  else if upper - lower < 30 then
    let H := lower • P
    if H = Q then lower else bgSmall P Q upper H lower
  else
    let h := 1 + Int.sqrt (upper - lower)
    let nb := if h > maxBgSteps then maxBgSteps else h
    let H2 := Q - lower • P
    match babySteps key P H2 nb 1 0 [] with
    | .inl i => lower + i
    | .inr (H, HT) => giantSteps key P H HT lower upper nb (1 + (upper - lower) / nb) 0 H2

/-! ### orders -/

/-- `while(!Q.is_zero()) {Q=p*Q; ans*=p;}` (pointsmod.cc:590), which need not end: `none` when the
fuel is used up -/
def killLoop (p : ℤ) : ℕ → G → ℤ → Option ℤ
  | 0, Q, ans => if Q = 0 then some ans else none
  | f + 1, Q, ans => if Q = 0 then some ans else killLoop p f (p • Q) (ans * p)

/-- the loop over the primes (pointsmod.cc:585-591) -/
def orderLoop (fuel : ℕ) (P : G) (mult : ℤ) : List ℤ → ℤ → Option ℤ
  | [], ans => some ans
  | p :: ps, ans =>
    match Marith.divideOut mult p with
    | none => none
    | some (m, _) =>
      match killLoop p fuel (m • P) ans with
      | none => none
      | some ans => orderLoop fuel P mult ps ans

/-- `my_order_point(P, mult)` (pointsmod.cc:580-593) -/
def orderMult (pdivs : ℤ → List ℤ) (fuel : ℕ) (P : G) (mult : ℤ) : Option ℤ :=
  if P = 0 then some 1 else orderLoop fuel P mult (pdivs mult) 1

/-- `my_order_point(P, lower, upper)` (pointsmod.cc:595-598) -/
def orderBounds (key : G → κ) (pdivs : ℤ → List ℤ) (fuel : ℕ) (P : G) (lower upper : ℤ) :
    Option ℤ :=
  orderMult pdivs fuel P (bg key P 0 lower upper)

/-- `set_hasse_bounds` (pointsmod.cc:650-657) -/
def hasseBounds (q : ℤ) : ℤ × ℤ :=
  let u := Int.sqrt (q * 4)
  let l := q + 1 - u
  let l := if l < 0 then 1 else l
  (l, q + 1 + u)

/-- `my_order_point(P)` (pointsmod.cc:600-606), which is also `order_point(P)` for a point whose order
is not yet known (pointsmod.h:167, pointsmod.cc:83-87) -/
def orderPoint (key : G → κ) (pdivs : ℤ → List ℤ) (fuel : ℕ) (q : ℤ) (P : G) : Option ℤ :=
  let b := hasseBounds q
  orderBounds key pdivs fuel P b.1 b.2

/-! ### relations -/

/-- the loop over the divisors (pointsmod.cc:633-638): returns `h` and `a` -/
def relLoop (key : G → κ) (P1 Q1 : G) (g : ℤ) : List ℤ → ℤ → ℤ → ℤ × ℤ
  | [], h, a => (h, a)
  | d :: ds, h, a =>
    if a = -1 then relLoop key P1 Q1 g ds d (bg key P1 (d • Q1) 0 (g - 1))
    else (h, a)

/-- `linear_relation` (pointsmod.cc:611-648): `ord` is `order_point`, `posdivs` lists the positive
divisors, `sort` is given by its result; the value is `m` and the new `a`.  In the error case `m = 0`. -/
def linearRelation (key : G → κ) (posdivs : ℤ → List ℤ) (ord : G → ℤ) (P Q : G) : ℤ × ℤ :=
  let n := ord P
  let m := ord Q
  let g : ℤ := Int.gcd n m
  if g = 1 then (g, 0)
  else
    let n1 := n / g
    let m1 := m / g
    let P1 := n1 • P
    let Q1 := m1 • Q
    let (h, a) := relLoop key P1 Q1 g ((posdivs g).insertionSort (· ≤ ·)) g (-1)
    let a := a * n1
    let m := h * m1
    if m • Q ≠ a • P then (0, a) else (m, a)

/-- the loop of `tidy_lcm` (pointsmod.cc:670) for `m > 0` -/
def tidyLoop (m g : ℤ) : ℤ :=
  if _h : 1 < g ∧ 0 < m then tidyLoop (m / g) (Int.gcd (m / g) g) else m
termination_by m.toNat
decreasing_by
  have := Int.ediv_lt_self_of_pos_of_ne_one _h.2 (by omega : g ≠ 1)
  omega

/-- `tidy_lcm` (pointsmod.cc:662-686) for positive `m`, `n`: the lcm and the new `m`, `n` -/
def tidyLcm (m n : ℤ) : ℤ × ℤ × ℤ :=
  let g : ℤ := Int.gcd m n
  let l := m * n / g
  let g : ℤ := Int.gcd m (n / g)
  let m := tidyLoop m g
  (l, m, l / m)

/-- `merge_points_1` (pointsmod.cc:692-731): the new `P` and `ordP` -/
def merge1 (ord : G → ℤ) (P : G) (ordP : ℤ) (Q : G) : G × ℤ :=
  if ordP • Q = 0 then (P, ordP)
  else
    let ordQ := ord Q
    if ordQ % ordP = 0 then (Q, ordQ)
    else
      let (nPQ, nP, nQ) := tidyLcm ordP ordQ
      ((ordP / nP) • P + (ordQ / nQ) • Q, nPQ)

end Eclib.Pmod
