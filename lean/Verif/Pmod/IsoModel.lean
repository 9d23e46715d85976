import Verif.Pmod.BgModel

/-!
# Model of merge_points_2, n2list and my_isomorphism_type (pointsmod.cc:744-1017)

The group is again any abelian group `G`.  Arguments standing for other functions: `ord` is
`order_point`, `wp` is `weil_pairing` (ffmod.cc), `other2` is the computation of another point of
order 2, `leg` is the result of `set_group_order_via_legendre`, and `rnd 0, rnd 1, …` are the results
of the calls of `random_point`.  `fuel` bounds the loops that need not end.
-/

namespace Eclib.Pmod

variable {G : Type} [AddCommGroup G] [DecidableEq G] {κ : Type} [DecidableEq κ]
variable {K : Type} [Monoid K] [DecidableEq K]

/-- the loop of `order(const gf_element&)` (gf.h:96-102), which does not end for `z = 0` -/
def gfOrderLoop (z : K) : ℕ → K → ℤ → Option ℤ
  | 0, zn, n => if zn = 1 then some n else none
  | f + 1, zn, n => if zn = 1 then some n else gfOrderLoop z f (zn * z) (n + 1)

/-- `order(const gf_element&)` (gf.h:96-102) -/
def gfOrder (fuel : ℕ) (z : K) : Option ℤ := gfOrderLoop z fuel z 1

/-- the variables `P1, n1, P2, n2` and `n2target` (called `quot` by the caller) -/
structure St (G : Type) where
  P1 : G
  n1 : ℤ
  P2 : G
  n2 : ℤ
  target : ℤ
deriving DecidableEq

/-- the end of case 3 of `merge_points_2` (pointsmod.cc:829-850): `Q` is killed by `n2target`, and
`m` is the order of the Weil pairing -/
def merge2Gain (pdivs : ℤ → List ℤ) (fuel : ℕ) (s : St G) (Q : G) (m : ℤ) : Option (St G) :=
  let l : ℤ := Int.lcm s.n2 m
  if l = s.n2 then some s
  else
    match orderMult pdivs fuel Q s.target with
    | none => none
    | some ordQ =>
      let Q1 := (ordQ / m) • Q
      if l = m then some { s with P2 := Q1, n2 := m }
      else
        let (l, n2d, md) := tidyLcm s.n2 m
        some { s with P2 := (s.n2 / n2d) • s.P2 + (m / md) • Q1, n2 := l }

/-- `merge_points_2` (pointsmod.cc:744-850).  The conversion of `n2target` to `long` is left out, and
the error message for a zero pairing: the loop of `order` does not end then. -/
def merge2 (key : G → κ) (pdivs : ℤ → List ℤ) (fuel : ℕ) (ord : G → ℤ) (wp : G → G → ℤ → K)
    (s : St G) (Q : G) : Option (St G) :=
  let Q1 := s.n2 • Q
  if Q1 = 0 then some s
  else
    let Q2 := (s.n1 / s.n2) • Q1
    if Q2 ≠ 0 then
      let (P1, n1) := merge1 ord s.P1 s.n1 Q
      let target := s.target * s.n1 / n1
      if s.n2 > 1 then some ⟨P1, n1, 0, 1, target⟩ else some ⟨P1, n1, s.P2, s.n2, target⟩
    else
      let a := bg key (s.target • s.P1) (s.target • Q) 0 (s.n1 / s.target)
      if a = -1 then some s
      else
        let Q := Q - a • s.P1
        if Q = 0 then some s
        else
          match gfOrder fuel (wp ((s.n1 / s.target) • s.P1) Q s.target) with
          | none => none
          | some m => merge2Gain pdivs fuel s Q m

/-- `n2list` (pointsmod.cc:856-865) for positive `n1` -/
def n2list (n1 lower upper q : ℤ) : List ℤ :=
  let n2min := lower / n1
  let n2max := upper / n1
  let g : ℤ := Int.gcd n1 (q - 1)
  let n2min := if n2min * n1 < lower then n2min + 1 else n2min
  ((List.range (n2max + 1 - n2min).toNat).map (fun i : ℕ => n2min + i)).filter (fun n2 => g % n2 = 0)

/-- the first loop of `my_isomorphism_type` (pointsmod.cc:930-941); `quotlist` is always
`n2list(ordP, lower, upper, q)` -/
def isoLoop1 (ord : G → ℤ) (rnd : ℕ → G) (lower upper q : ℤ) : ℕ → ℕ → G → ℤ → Option (ℕ × G × ℤ)
  | 0, n, P, ordP =>
    if (n ≤ 10 ∧ 2 * ordP ≤ upper) ∨ (n2list ordP lower upper q).length ≠ 1 then none
    else some (n, P, ordP)
  | f + 1, n, P, ordP =>
    if (n ≤ 10 ∧ 2 * ordP ≤ upper) ∨ (n2list ordP lower upper q).length ≠ 1 then
      let r := merge1 ord P ordP (rnd n)
      isoLoop1 ord rnd lower upper q f (n + 1) r.1 r.2
    else some (n, P, ordP)

/-- the second loop (pointsmod.cc:1006-1012) -/
def isoLoop2 (key : G → κ) (pdivs : ℤ → List ℤ) (mfuel : ℕ) (ord : G → ℤ) (wp : G → G → ℤ → K)
    (rnd : ℕ → G) : ℕ → ℕ → St G → Option (St G)
  | 0, _, s => if s.n2 = s.target then some s else none
  | f + 1, n, s =>
    if s.n2 = s.target then some s
    else
      match merge2 key pdivs mfuel ord wp s (rnd n) with
      | none => none
      | some s => isoLoop2 key pdivs mfuel ord wp rnd f (n + 1) s

/-- the test for the fields where the points are counted (pointsmod.cc:908) -/
def countDirectly (q : ℤ) : Bool := q < 100 || q = 181 || q = 331 || q = 547

/-- the bounds on the group order (pointsmod.cc:902-916) -/
def isoBounds (q leg : ℤ) : ℤ × ℤ := if countDirectly q then (leg, leg) else hasseBounds q

/-- the order of the first point (pointsmod.cc:922) -/
def isoFirst (key : G → κ) (pdivs : ℤ → List ℤ) (fuel : ℕ) (q leg : ℤ) (P : G) : Option ℤ :=
  if countDirectly q then orderMult pdivs fuel P (isoBounds q leg).1
  else orderBounds key pdivs fuel P (isoBounds q leg).1 (isoBounds q leg).2

/-- the state with which the second loop begins (pointsmod.cc:949-1004) -/
def isoStart (other2 : G → Option G) (P : G) (ordP quot : ℤ) : St G :=
  if quot % 2 = 0 then
    match other2 ((ordP / 2) • P) with
    | some T => ⟨P, ordP, T, 2, quot⟩
    | none => ⟨P, ordP, 0, 1, quot⟩
  else ⟨P, ordP, 0, 1, quot⟩

/-- `my_isomorphism_type` (pointsmod.cc:897-1017): the values of `P1, n1, P2, n2` -/
def isoType (key : G → κ) (pdivs : ℤ → List ℤ) (fuel : ℕ) (ord : G → ℤ) (wp : G → G → ℤ → K)
    (other2 : G → Option G) (rnd : ℕ → G) (q leg : ℤ) : Option (G × ℤ × G × ℤ) :=
  let b := isoBounds q leg
  match isoFirst key pdivs fuel q leg (rnd 0) with
  | none => none
  | some ordP =>
    match isoLoop1 ord rnd b.1 b.2 q fuel 1 (rnd 0) ordP with
    | none => none
    | some (n, P, ordP) =>
      let quot := (n2list ordP b.1 b.2 q).headD 0
      if quot = 1 then some (P, ordP, 0, 1)
      else
        match isoLoop2 key pdivs fuel ord wp rnd fuel n (isoStart other2 P ordP quot) with
        | none => none
        | some s => some (s.P1, s.n1, s.P2, s.n2)

end Eclib.Pmod
