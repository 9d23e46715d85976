import Verif.Rank2.Model
import Verif.Bits.Model

/-!
# Model of the second local descent and of the global descent of `rank2` (libsrc/mrank2.cc)
-/

namespace Eclib.Rank2

open Eclib.Sqf (makenum)
open Eclib.Bits (BS)

/-- results of `testquartic` and `second_descent` -/
inductive Res where
  /-- `-1`: there is no rational point -/
  | no
  /-- `0`: undecided -/
  | unk
  /-- `1`: a point on `y² = d1x⁴ + cx²z² + d2z⁴` -/
  | pt (x y z : Int)
  deriving DecidableEq, Repr

/-- what is not part of the model: the searches of `testquartic` (`ratpoint` and `qs.search`, mrank2.cc:89-124)
and `desc2`, both called with `which`, `c`, `d1`, `d2`; `desc2` in `find_els2gens`, with its last argument 1, whose
value `-1` is `false` here; `order(P)<0` for points of the curve; `do_second_descent` -/
structure GEnv extends Env where
  /-- the searches; the value `no` does not occur -/
  test : Bool → Int → Int → Int → Res
  /-- `desc2` in `second_descent` -/
  desc2 : Bool → Int → Int → Int → Res
  /-- `1+desc2(...,1)` in `find_els2gens` -/
  desc2loc : Bool → Int → Int → Int → Bool
  /-- `order(P)<0` on the curve `y² = x³ + cx² + dx` -/
  inf : Int → Int → Option (Rat × Rat) → Bool
  /-- `do_second_descent` -/
  second : Bool

/-- the point of `rank2::makepoint` (mrank2.cc:46-87), in affine coordinates (`none` is the origin) -/
def makepoint (which : Bool) (d1 d2 x y z : Int) : Option (Rat × Rat) :=
  if which then
    if x * z ≠ 0 then some ((2 * y * y * (x * z) : Int) / ((2 * (x * z)) ^ 3 : Int),
      (y * (d1 * (x * x) * (x * x) - d2 * (z * z) * (z * z)) : Int) / ((2 * (x * z)) ^ 3 : Int)) else none
  else
    if z ≠ 0 then some ((d1 * x * x * z : Int) / (z ^ 3 : Int), (d1 * x * y : Int) / (z ^ 3 : Int)) else none

/-- the loops for the contribution of the torsion (mrank2.cc:418-441 with the test of the mask, and 509-531
without): `n` iterations are left -/
def torsLoop2 (useMask : Bool) (gens0 : List Int) : Nat → Nat → BS × List Int → Option (BS × List Int)
  | 0, _, s => some s
  | n + 1, index, s =>
    if ¬ index < 31 then none
    else if useMask ∧ s.1.mask (2 ^ index) then torsLoop2 useMask gens0 n (index + 1) s
    else
      match s.1.reduce (2 ^ index) 0, gens0[index]? with
      | some (w, j), some d1 =>
        if j < 0 then torsLoop2 useMask gens0 n (index + 1) s
        else
          match s.1.augmentAt w j.toNat with
          | none => none
          | some B => torsLoop2 useMask gens0 n (index + 1) (B, s.2 ++ [d1])
      | _, _ => none

/-- the body of the loop of `find_els2gens` (mrank2.cc:446-480) -/
def els2Step (t : Int → Int → Bool) (gens0 : List Int) (d : Int) (index : Nat) (s : BS × List Int) : Option (BS × List Int) :=
  if s.1.mask index then some s
  else
    match s.1.reduce index 0 with
    | none => none
    | some (w, j) =>
      if j < 0 then some s
      else
        match makenum gens0 index with
        | none => none
        | some d1 =>
          if t d1 (d.fdiv d1) then
            match s.1.augmentAt w j.toNat with
            | none => none
            | some B => some (B, s.2 ++ [d1])
          else some s

/-- the loop `for(index=1; (index<maxn)&&(nels2gens<nelsgens); index++)`: `n` values of `index` below `maxn` are left -/
def els2Loop (t : Int → Int → Bool) (gens0 : List Int) (d : Int) : Nat → Nat → BS × List Int → Option (BS × List Int)
  | 0, _, s => some s
  | n + 1, index, s =>
    if s.2.length < gens0.length then
      match els2Step t gens0 d index s with
      | none => none
      | some s' => els2Loop t gens0 d n (index + 1) s'
    else some s

/-- `rank2::find_els2gens` (mrank2.cc:387-497): `els2gens` -/
def findEls2 (G : GEnv) (which : Bool) (c d : Int) (E : Els) : Option (List Int) :=
  if ¬ E.gens.length < 31 then none
  else
    match torsLoop2 true E.gens E.nt2 0 (BS.new E.gens.length, []) with
    | none => none
    | some s =>
      match els2Loop (G.desc2loc which c) E.gens d (2 ^ E.gens.length - 1) 1 s with
      | none => none
      | some s' => some s'.2

/-- the state of `find_glsgens`: `gls_space`, `gls_gens`, `pointlist` -/
structure GS where
  /-- `gls_space` -/
  B : BS
  /-- `gls_gens` -/
  gens : List Int
  /-- `pointlist` -/
  pts : List (Option (Rat × Rat))

/-- what happens with the result for one `d1` (mrank2.cc:577-606, 87): `some none` is the return with `success=0` -/
def glsUse (inf : Option (Rat × Rat) → Bool) (which : Bool) (w : Nat) (j : Int) (d1 d2 : Int) (s : GS) : Res → Option (Option GS)
  | .no => some none
  | .unk => some (some s)
  | .pt x y z =>
    match s.B.augmentAt w j.toNat with
    | none => none
    | some B =>
      let P := makepoint which d1 d2 x y z
      some (some ⟨B, s.gens ++ [d1], if inf P then s.pts ++ [P] else s.pts⟩)

/-- the body of the loop of `find_glsgens` (mrank2.cc:548-607) -/
def glsStep (inf : Option (Rat × Rat) → Bool) (which : Bool) (t : Int → Int → Res) (gens0 : List Int) (d : Int) (index : Nat) (s : GS) :
    Option (Option GS) :=
  match s.B.reduce index 0 with
  | none => none
  | some (w, j) =>
    if j < 0 then some (some s)
    else
      match makenum gens0 index with
      | none => none
      | some d1 => glsUse inf which w j d1 (d.fdiv d1) s (t d1 (d.fdiv d1))

/-- the loop over `index` (mrank2.cc:546) -/
def glsLoop (inf : Option (Rat × Rat) → Bool) (which : Bool) (t : Int → Int → Res) (gens0 : List Int) (d : Int) :
    Nat → Nat → GS → Option (Option GS)
  | 0, _, s => some (some s)
  | n + 1, index, s =>
    if s.gens.length < gens0.length then
      match glsStep inf which t gens0 d index s with
      | none => none
      | some none => some none
      | some (some s') => glsLoop inf which t gens0 d n (index + 1) s'
    else some (some s)

/-- `rank2::find_glsgens` (mrank2.cc:499-686), given `els2gens`, `nt2gens` and `pointlist`: `gls_gens` and `pointlist`;
`gls2` is the length of `gls_gens`. The curve `ee` has the coefficients `ce`, `de` -/
def findGls (G : GEnv) (ce de : Int) (which : Bool) (c d : Int) (gens0 : List Int) (nt2 : Nat) (pts : List (Option (Rat × Rat))) :
    Option (Option (List Int × List (Option (Rat × Rat)))) :=
  if ¬ gens0.length < 31 then none
  else
    match torsLoop2 false gens0 nt2 0 (BS.new gens0.length, []) with
    | none => none
    | some s =>
      match glsLoop (G.inf ce de) which (G.test which c) gens0 d (2 ^ gens0.length - 1) 1 ⟨s.1, s.2, pts⟩ with
      | none => none
      | some none => some none
      | some (some s1) =>
        if G.second then
          match glsLoop (G.inf ce de) which (G.desc2 which c) gens0 d (2 ^ gens0.length - 1) 1 s1 with
          | none => none
          | some none => some none
          | some (some s2) => some (some (s2.gens, s2.pts))
        else some (some (s1.gens, s1.pts))

/-- the results -/
structure RR where
  /-- `els2gens0`, `els2gens1` -/
  e20 : List Int
  /-- second curve -/
  e21 : List Int
  /-- `glsgens0`, `glsgens1` -/
  g0 : List Int
  /-- second curve -/
  g1 : List Int
  /-- `rank_bound` -/
  bound : Int
  /-- `rank` -/
  rank : Int
  /-- `index2` -/
  index2 : Int
  /-- `certain` -/
  certain : Bool
  /-- `pointlist` -/
  pts : List (Option (Rat × Rat))

/-- the second local descent, unless it is not asked for or the bound is 0 (mrank2.cc:778-799): `els2gens0`, `els2gens1`
and `rank_bound` -/
def secondLocal (G : GEnv) (c d : Int) (L : LD) : Option (List Int × List Int × Int) :=
  if L.bound = 0 ∨ ¬ G.second then some (L.e0.gens, L.e1.gens, L.bound)
  else
    match findEls2 G false c d L.e0, findEls2 G true (-2 * c) (c * c - 4 * d) L.e1 with
    | some a, some b => some (a, b, a.length + b.length - 2)
    | _, _ => none

/-- the descent for one point of order 2: `local_descent` (mrank2.cc:688-826) and the global descent of the
constructor (mrank2.cc:926-1019) -/
def descent (G : GEnv) (s2 s4 x0 : Int) : Option (Option RR) :=
  let c := 3 * x0 + s2
  let d := x0 * (c + s2) + s4
  match localDescent G.toEnv s2 s4 x0 with
  | none => none
  | some none => some none
  | some (some L) =>
    match secondLocal G c d L with
    | none => none
    | some (a, b, bound) =>
      match findGls G c d false c d a L.e0.nt2 [] with
      | none => none
      | some none => some none
      | some (some (g0, p0)) =>
        match findGls G c d true (-2 * c) (c * c - 4 * d) b L.e1.nt2 p0 with
        | none => none
        | some none => some none
        | some (some (g1, p1)) =>
          let mw : Int := 2 ^ g0.length * 2 ^ g1.length
          some (some ⟨a, b, g0, g1, bound, g0.length + g1.length - 2, if (isqrt (c * c - 4 * d)).isSome then mw else mw.tdiv 2, decide (a.length = g0.length ∧ b.length = g1.length), p1⟩)

end Eclib.Rank2
