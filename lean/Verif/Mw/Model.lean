import Verif.Arith.Model
import Mathlib.Algebra.Order.Floor.Ring
import Mathlib.Algebra.Field.Basic

/-!
# Model of class `mw` (libsrc/mwprocs.cc): processing of points, and of `ratapprox` (libsrc/marith.cc)

The type `bigfloat` is an ordered field `K` (the real numbers; examples are computed with rational numbers), so that rounding errors are not
modelled; `long` is unbounded.  A `vector<vector<bigfloat>>` is a function of two indices; the size `MAXRANK` is checked where the
functions of `mw` use it.  `none` stands for a division by 0, an access outside `height_pairs` or a loop that has not ended within the number of
iterations given as `fuel`.
-/

namespace Eclib.Mw

variable {K : Type} [Field K] [LinearOrder K] [FloorRing K]

/-! ## ratapprox -/

/-- `longify(x,a,0)` (interface.cc:324-349): the nearest integer -/
def rnd (x : K) : ℤ := if 0 < x then ⌊x + 1 / 2⌋ else -⌊-x + 1 / 2⌋

/-- the loop of `ratapprox` (marith.cc:1211-1235): `x2` and `y2` -/
def raLoop (maxd : ℤ) (x : K) : ℕ → K → ℤ → ℤ → ℤ → ℤ → Option (ℤ × ℤ)
  | 0, _, _, _, _, _ => none
  | n + 1, xx, x0, x1, y0, y1 =>
    let c := rnd xx
    let x2 := x0 + c * x1
    let y2 := y0 + c * y1
    if y2 = 0 then none
    else if |xx - (c : K)| < 1 / 10 ^ 7 then some (x2, y2)
    else if maxd > 0 ∧ |y2| > maxd then some (x1, y1)
    else if |x - (x2 : K) / (y2 : K)| > 1 / 10 ^ 7 then raLoop maxd x n (1 / (xx - (c : K))) x1 x2 y1 y2
    else some (x2, y2)

/-- `ratapprox(bigfloat x, long& a, long& b, long maxd)` (marith.cc:1204-1239) -/
def ratapprox (fuel : ℕ) (maxd : ℤ) (x : K) : Option (ℤ × ℤ) :=
  (raLoop maxd x fuel x 0 1 1 0).map fun (r : ℤ × ℤ) => if r.2 < 0 then (-r.1, -r.2) else r

/-! ## determinants -/

/-- the loop for the pivot in `det` (mwprocs.cc:134-136): the value of `i0` after the loop; `k` iterations are left -/
def pivLoop (m : ℕ → ℕ → K) : ℕ → ℕ → K → ℕ
  | 0, i0, _ => i0
  | k + 1, i0, piv => if |piv| < 1 / 10 ^ 6 then pivLoop m k (i0 + 1) (m i0 0) else i0

/-- exchange of rows 0 and `i0` (mwprocs.cc:139-146) -/
def swap0 (m : ℕ → ℕ → K) (i0 : ℕ) : ℕ → ℕ → K := fun i j => if i = 0 then m i0 j else if i = i0 then m 0 j else m i j

/-- `get_minor` (mwprocs.cc:95-110) -/
def getMinor (m : ℕ → ℕ → K) (i0 j0 : ℕ) : ℕ → ℕ → K :=
  fun i j => m (if i ≥ i0 then i + 1 else i) (if j ≥ j0 then j + 1 else j)

/-- elimination of the first column (mwprocs.cc:147-154) -/
def elim0 (m : ℕ → ℕ → K) : ℕ → ℕ → K := fun i j => if i = 0 then m i j else m i j - m 0 j * (m i 0 / m 0 0)

/-- `det` (mwprocs.cc:118-159) -/
def det : ℕ → (ℕ → ℕ → K) → Option K
  | 0, _ => some 1
  | 1, m => some (m 0 0)
  | 2, m => some (m 0 0 * m 1 1 - m 0 1 * m 1 0)
  | n + 3, m =>
    let i0 := pivLoop m (n + 3) 0 (m 0 0)
    if i0 = n + 3 then some 0
    else
      let m1 := if i0 > 0 then swap0 m i0 else m
      if m1 0 0 = 0 then none
      else (det (n + 2) (getMinor (elim0 m1) 0 0)).map fun (d : K) => (if i0 > 0 then -m1 0 0 else m1 0 0) * d

/-! ## process -/

/-- what is not part of the model: `height`, `order`, the saturation (`satsieve.saturate(unsat,index,sat)` for the points given by the
number and the list: the index and the new points), `maxrank`, `process_points` -/
structure Env (K A : Type) where
  /-- `height` -/
  h : A → K
  /-- `order` -/
  ord : A → ℤ
  /-- the saturation -/
  sat : ℤ → ℕ → (ℕ → A) → ℕ × (ℕ → A)
  /-- `maxrank` -/
  maxrank : ℕ
  /-- `process_points` -/
  pp : Bool

/-- the members of `mw` that change; `basis` has the first `rank` values of `b` -/
structure St (K A : Type) where
  /-- `rank` -/
  rank : ℕ
  /-- `basis` -/
  b : ℕ → A
  /-- `height_pairs` -/
  hp : ℕ → ℕ → K
  /-- `reg` -/
  reg : K

variable {A : Type} [AddCommGroup A] [DecidableEq A]

/-- `height_pairing` (heights.cc:304-317) -/
def pairing (V : Env K A) (P Q : A) : K :=
  if P = 0 ∨ Q = 0 then 0 else if P = Q then V.h P else (V.h (P + Q) - V.h P - V.h Q) / 2

/-- the matrix is computed again for the first `r` points (mwprocs.cc:436-446, 565-574) -/
def regram (V : Env K A) (r : ℕ) (b : ℕ → A) (hp : ℕ → ℕ → K) : ℕ → ℕ → K := fun i j =>
  if i < r ∧ j < r then (if i = j then V.h (b i) else if j < i then pairing V (b i) (b j) else pairing V (b j) (b i)) else hp i j

/-- the new last row and column (mwprocs.cc:368-376) -/
def border (V : Env K A) (r : ℕ) (b : ℕ → A) (P : A) (hp : ℕ → ℕ → K) : ℕ → ℕ → K := fun i j =>
  if i = r ∧ j = r then V.h P else if j = r ∧ i < r then pairing V (b i) P else if i = r ∧ j < r then pairing V (b j) P else hp i j

/-- `alpha[i]`, `i < rank` (mwprocs.cc:379-388): `detsign` starts with the value for `i = -1` -/
def alphas (r : ℕ) (hp : ℕ → ℕ → K) : Option (List K) :=
  (List.range r).mapM fun (i : ℕ) => (det r (getMinor hp i r)).map fun (x : K) => x * (if (i + r) % 2 = 0 then 1 else -1)

/-- `newreg` (mwprocs.cc:394-396) -/
def newreg (r : ℕ) (hp : ℕ → ℕ → K) (alpha : List K) (reg : K) : K :=
  ((List.range r).map fun (i : ℕ) => hp i r * alpha.getD i 0).sum + hp r r * reg

/-- `cleardenoms` (mwprocs.cc:163-184): the list without its last entry, and the last entry -/
def cleardenoms (fuel : ℕ) (alpha : List K) (last : K) : Option (List ℤ × ℤ) :=
  if last = 0 then none
  else (alpha.mapM fun (a : K) => ratapprox fuel 0 (a / last)).map fun (l : List (ℤ × ℤ)) =>
    let lcmd := l.foldl (fun (g : ℤ) (nd : ℤ × ℤ) => (g * nd.2).tdiv (Int.gcd g nd.2)) 1
    (l.map fun (nd : ℤ × ℤ) => nd.1 * lcmd.tdiv nd.2, lcmd)

/-- the smallest coefficient (mwprocs.cc:521-528): `min` and `imin`, `none` for -1 -/
def findMin (n : ℕ) (a : ℕ → ℤ) : ℤ × Option ℕ :=
  (List.range n).foldl (fun (s : ℤ × Option ℕ) (i : ℕ) =>
    if |a i| > 0 ∧ (s.2 = none ∨ |a i| < s.1) then (|a i|, some i) else s) (0, none)

/-- the loop `while(min>1)` (mwprocs.cc:537-558): the points, the coefficients and `imin`; without a remainder the loop does not end -/
def redLoop (n : ℕ) : ℕ → (ℕ → A) → (ℕ → ℤ) → ℤ → ℕ → Option ((ℕ → A) × (ℕ → ℤ) × ℕ)
  | 0, _, _, _, _ => none
  | f + 1, b, a, min, imin =>
    if min > 1 then
      match (List.range n).find? fun (i : ℕ) => Arith.mod (a i) min ≠ 0 with
      | none => none
      | some i =>
        let r := Arith.mod (a i) min
        let q := (a i - r).tdiv (a imin)
        redLoop n f (Function.update b imin (b imin + q • b i)) (Function.update a i r) |r| i
    else some (b, a, imin)

/-- `basis.erase(basis.begin()+imin)` -/
def erase (b : ℕ → A) (imin : ℕ) : ℕ → A := fun i => if i < imin then b i else b (i + 1)

/-- the case of a dependent point (mwprocs.cc:464-587) -/
def depend (V : Env K A) (fuel : ℕ) (S : St K A) (P : A) (hp : ℕ → ℕ → K) (alpha : List K) : Option (St K A) :=
  match cleardenoms fuel alpha S.reg with
  | none => none
  | some (nl, index) =>
    if index = 1 then some { S with hp := hp }
    else
      let a : ℕ → ℤ := fun i => if i < S.rank then nl.getD i 0 else index
      match findMin (S.rank + 1) a with
      | (_, none) => none
      | (min, some imin) =>
        match redLoop (S.rank + 1) fuel (Function.update S.b S.rank P) a min imin with
        | none => none
        | some (b, _, imin) =>
          let b' := erase b imin
          some ⟨S.rank, b', regram V S.rank b' hp, S.reg / ((index : K) * (index : K))⟩

/-- the saturation after a new generator (mwprocs.cc:416-449) -/
def afterNew (V : Env K A) (sat : ℤ) (S : St K A) : St K A :=
  if sat > 0 then
    let r := V.sat sat S.rank S.b
    if r.1 > 1 then ⟨S.rank, r.2, regram V S.rank r.2 S.hp, S.reg / ((r.1 : K) * (r.1 : K))⟩ else S
  else S

/-- the first point (mwprocs.cc:325-360) -/
def firstPt (V : Env K A) (sat : ℤ) (S : St K A) (P : A) : St K A :=
  let b := Function.update S.b 0 P
  let hp : ℕ → ℕ → K := fun i j => if i = 0 ∧ j = 0 then V.h P else S.hp i j
  if sat > 0 ∧ (V.sat sat 1 b).1 > 1 then
    let b' := (V.sat sat 1 b).2
    ⟨1, b', fun i j => if i = 0 ∧ j = 0 then V.h (b' 0) else S.hp i j, V.h (b' 0)⟩
  else ⟨1, b, hp, V.h P⟩

/-- `mw::process(const Point&, int sat)` (mwprocs.cc:285-588): the value returned and the new state -/
def process (V : Env K A) (fuel : ℕ) (sat : ℤ) (S : St K A) (P : A) : Option (Bool × St K A) :=
  if V.ord P > 0 then some (false, S)
  else if !V.pp then some (false, { S with rank := S.rank + 1, b := Function.update S.b S.rank P })
  else if S.rank = 0 then some (decide (V.maxrank < 2), firstPt V sat S P)
  else if ¬ S.rank < 30 then none
  else
    let hp := border V S.rank S.b P S.hp
    match alphas S.rank hp with
    | none => none
    | some alpha =>
      let nr := newreg S.rank hp alpha S.reg
      if S.reg = 0 then none
      else if |nr / S.reg| > 1 / 10 ^ 4 then
        let S' := afterNew V sat ⟨S.rank + 1, Function.update S.b S.rank P, hp, nr⟩
        some (decide (V.maxrank = S.rank + 1), S')
      else (depend V fuel S P hp alpha).map fun (S' : St K A) => (false, S')

/-- the loop of `process(const vector<Point>&, int sat)` (mwprocs.cc:233-238) -/
def processAll (V : Env K A) (fuel : ℕ) : List A → Bool → St K A → Option (Bool × St K A)
  | [], flag, S => some (flag, S)
  | P :: l, flag, S =>
    match process V fuel 0 S P with
    | none => none
    | some (f, S') => processAll V fuel l (flag || f) S'

/-- `mw::process(const vector<Point>&, int sat)` (mwprocs.cc:226-283); `V.sat` is the saturation -/
def processList (V : Env K A) (fuel : ℕ) (sat : ℤ) (S : St K A) (l : List A) : Option (Bool × St K A) :=
  match processAll V fuel l false S with
  | none => none
  | some (flag, S1) =>
    if sat > 0 ∧ S1.rank > 0 then
      let r := V.sat sat S1.rank S1.b
      let b := if r.1 > 1 then r.2 else S1.b
      let hp := regram V S1.rank b S1.hp
      (det S1.rank hp).map fun (d : K) => (flag, ⟨S1.rank, b, hp, d⟩)
    else some (flag, S1)

/-- `mw::saturate(index, unsat, sat_bd, sat_low_bd)` (mwprocs.cc:590-656), without the value returned and `unsat`: `index0` is the value of `index`
before the call, which is not changed when `rank` is 0; `V.sat` is the saturation with the bounds of the call -/
def saturate (V : Env K A) (sat : ℤ) (index0 : ℕ) (S : St K A) : ℕ × St K A :=
  let r := if S.rank > 0 then V.sat sat S.rank S.b else (index0, S.b)
  if r.1 > 1 then (r.1, ⟨S.rank, r.2, regram V S.rank r.2 S.hp, S.reg / ((r.1 : K) * (r.1 : K))⟩) else (r.1, S)

/-! ## conversion of points -/

/-- the coefficients `c[0],…,c[3]` of the model on which points are searched in `mw::search` (mwprocs.cc:664-680) -/
def searchModel (iso : Bool) (a2 a4 a6 b2 b4 b6 : ℤ) : ℤ × ℤ × ℤ × ℤ := if iso then (16 * b6, 8 * b4, b2, 1) else (a6, a4, a2, 1)

/-- `x1`, `y1`, `z1` in `mw::process(x,y,z,sat)` (mwprocs.cc:208-215); `rz` is `isqrt(z)` -/
def convert (iso : Bool) (a1 a3 x y z rz : ℤ) : ℤ × ℤ × ℤ :=
  let x1 := x * rz
  let z1 := z * rz
  if iso then (x1 * 2, y - (a1 * x1 + 4 * a3 * z1), z1 * 8) else (x1, y, z1)

end Eclib.Mw
