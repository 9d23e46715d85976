import Mathlib.Data.Int.Init
import Mathlib.Data.List.Basic
import Mathlib.Data.Int.GCD

/-!
# Model of `comp_map_image` (egr.cc:694-800)

A matrix of `long` is a function `ℕ → ℕ → ℤ` with rows and columns numbered from 0; overflow is not modelled.
`/` and `%` of the code truncate.  Assignments to all entries of a column or of several rows are made at once where the code uses a loop
whose passages do not depend on each other.
-/

namespace Eclib.Egr

/-- a matrix -/
abbrev M := ℕ → ℕ → ℤ

/-- replace column `j` -/
def setCol (m : M) (j : ℕ) (f : ℤ → ℤ) : M := fun i jj => if jj = j then f (m i jj) else m i jj

/-- the gcd of the column (egr.cc:716-717): the loop stops when it is 1; `k` rows remain, the next is row `i` -/
def colGcd (m : M) (j : ℕ) : ℕ → ℕ → ℕ → ℕ
  | 0, _, g => g
  | k + 1, i, g => if g = 1 then g else colGcd m j k (i + 1) (Nat.gcd g (m i j).natAbs)

/-- the search for the smallest non-zero entry of the column (egr.cc:745-747) -/
def colMin (m : M) (j : ℕ) (npts : ℕ) (c : ℤ) : ℤ :=
  (List.range npts).foldl (fun c i => if m i j ≠ 0 ∧ (m i j).natAbs < c.natAbs then m i j else c) c

/-- the first row with the entry `c` in column `j` (egr.cc:748, 771-775); in the code `imin` keeps its value when there is none -/
def rowOf (m : M) (j : ℕ) (npts : ℕ) (c : ℤ) : Option ℕ := (List.range npts).find? (fun i => m i j == c)

/-- the reduction of the rows by row `imin` (egr.cc:752-761) -/
def reduceRows (m : M) (j : ℕ) (c : ℤ) (imin : ℕ) : M := fun i jj =>
  if (m i j).tmod c ≠ 0 then m i jj - (m i j - (m i j).tmod c).tdiv c * m imin jj else m i jj

/-- the loop `while(abs(colmin)>1)` (egr.cc:739-765); the first argument bounds the number of passages -/
def minLoop (j npts : ℕ) : ℕ → M → ℤ → Option (M × ℤ)
  | 0, m, c => if c.natAbs > 1 then none else some (m, c)
  | fuel + 1, m, c =>
    if c.natAbs > 1 then
      let c' := colMin m j npts c
      (rowOf m j npts c').bind (fun imin => minLoop j npts fuel (reduceRows m j c' imin) c')
    else some (m, c)

/-- clearing the column and multiplying row `imin` (egr.cc:776-784, 792-793) -/
def clear (moduli : ℕ → ℕ) (m : M) (j : ℕ) (c : ℤ) (md : ℤ) (imin : ℕ) : M := fun i jj =>
  if i = imin then (md * m imin jj).tmod (moduli jj)
  else (m i jj - m i j * c * m imin jj).tmod (moduli jj)

/-- the scaling of the column by its gcd `g` (egr.cc:722-731): the new modulus and matrix -/
def scaleCol (m : M) (j : ℕ) (md : ℤ) (g : ℕ) : ℤ × M :=
  if 1 < g then
    let gm := Int.gcd g md
    let md' := if 1 < gm then md.tdiv gm else md
    let g' := if 1 < gm then g / gm else g
    let m' := if 1 < gm then setCol m j (fun x => (x.tdiv gm).tmod md') else m
    (md', if 1 < g' then setCol m' j (fun x => (x.tdiv g').tmod md') else m')
  else (md, m)

/-- the work on column `j` (egr.cc:705-798): the new matrix and `ans` -/
def colStep (moduli : ℕ → ℕ) (npts j : ℕ) (s : M × ℤ) : Option (M × ℤ) :=
  let md : ℤ := moduli j
  if md = 1 then some s
  else
    let m := setCol s.1 j (fun x => x.tmod md)
    let g := colGcd m j npts 0 0
    if g = 0 then some (m, s.2)
    else
      let r := scaleCol m j md g
      if r.1 = 1 then some (r.2, s.2)
      else
        (minLoop j npts r.1.natAbs r.2 r.1).bind (fun t =>
          (rowOf t.1 j npts t.2).map (fun imin =>
            (clear moduli t.1 j t.2 r.1 imin, s.2 * r.1)))

/-- `comp_map_image` (egr.cc:694-800) with `npts` rows and `np` columns, columns `< k` done -/
def imgLoop (moduli : ℕ → ℕ) (npts : ℕ) (m : M) : ℕ → Option (M × ℤ)
  | 0 => some (m, 1)
  | k + 1 => (imgLoop moduli npts m k).bind (colStep moduli npts k)

/-- `comp_map_image` (egr.cc:694-800) -/
def compMapImage (moduli : ℕ → ℕ) (npts np : ℕ) (m : M) : Option ℤ := (imgLoop moduli npts m np).map (·.2)

end Eclib.Egr
