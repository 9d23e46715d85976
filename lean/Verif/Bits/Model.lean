import Mathlib.Data.Nat.Bitwise

/-!
# Model of `bitspace.cc` / `bitspace.h`: spaces of bit vectors over the field with two elements

An `unsigned long` is a natural number (all operations used are bitwise, so no carry can leave the
word).  The shift `1<<i` is done in type `int`: for `i ≥ 31` it is not a power of two (undefined up
to C++11, a sign-extended mask afterwards) and the model answers `none`.
-/

namespace Eclib.Bits

/-- `testbit(a,i)` (bitspace.h:60); `none` for a shift that is not a positive `int` -/
def testbit (a : Nat) (i : Nat) : Option Bool :=
  if i < 31 then some (a.testBit i) else none

/-- class `bitspace` (bitspace.h:29-36): `dim` is the common length of `pivs` and `gens`, which
hold only the entries already written (the vectors of the code have size `maxdim` from the start) -/
structure BS where
  /-- `maxdim` -/
  maxdim : Nat
  /-- `pivs`, the entries below `dim` -/
  pivs : List Nat
  /-- `gens`, the entries below `dim` -/
  gens : List Nat
  /-- `bitmask` -/
  bitmask : Nat
  deriving DecidableEq, Repr

/-- `dim` -/
def BS.dim (B : BS) : Nat := B.gens.length

/-- the constructor (bitspace.cc:27-48), with `NTL_BITS_PER_LONG = 64` -/
def BS.new (d : Int) : BS :=
  let d := if d < 0 then 0 else d
  let d := if d > 64 then 64 else d
  { maxdim := d.toNat, pivs := [], gens := [], bitmask := 0 }

/-- the first loop of `bitspace::reduce` (bitspace.cc:53) -/
def elim : List (Nat × Nat) → Nat → Option Nat
  | [], v => some v
  | (p, g) :: l, v =>
    match testbit v p with
    | none => none
    | some true => elim l (v ^^^ g)
    | some false => elim l v

/-- the second loop of `bitspace::reduce` (bitspace.cc:54-55): highest set bit below the bound -/
def topBit : Nat → Nat → Option Int
  | 0, _ => some (-1)
  | j + 1, v =>
    match testbit v j with
    | none => none
    | some true => some j
    | some false => topBit j v

/-- `bitspace::reduce` (bitspace.cc:50-56): the new `v` and the returned position -/
def BS.reduce (B : BS) (v : Nat) (start : Nat) : Option (Nat × Int) :=
  match elim ((B.pivs.zip B.gens).drop start) v with
  | none => none
  | some w =>
    match topBit B.maxdim w with
    | none => none
    | some j => some (w, j)

/-- `bitspace::augment(v,piv)` (bitspace.cc:58-64); `none` for a write outside the vectors or a
shift that is not a positive `int` -/
def BS.augmentAt (B : BS) (v : Nat) (piv : Nat) : Option BS :=
  if B.dim < B.maxdim ∧ piv < 31 then
    some { B with gens := B.gens ++ [v], pivs := B.pivs ++ [piv], bitmask := B.bitmask ||| 2 ^ piv }
  else none

/-- `bitspace::augment(v)` (bitspace.h:48-55) -/
def BS.augment (B : BS) (v : Nat) : Option (BS × Int) :=
  match B.reduce v 0 with
  | none => none
  | some (w, j) =>
    if j < 0 then some (B, 0)
    else
      match B.augmentAt w j.toNat with
      | none => none
      | some B' => some (B', 1)

/-- `bitspace::mask` (bitspace.h:43) -/
def BS.mask (B : BS) (i : Nat) : Bool := i &&& B.bitmask ≠ 0

/-- a history of calls of `augment`: the final space and the values returned -/
def BS.run (B : BS) : List Nat → Option (BS × List Int)
  | [] => some (B, [])
  | v :: vs =>
    match B.augment v with
    | none => none
    | some (B', r) =>
      match B'.run vs with
      | none => none
      | some (B'', rs) => some (B'', r :: rs)

end Eclib.Bits
