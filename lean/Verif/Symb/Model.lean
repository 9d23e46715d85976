import Verif.Arith.Model

/-!
# Model of M-symbols: `moddata.h`, `moddata.cc`, `symb.h`, `symb.cc`

`long` variables are mathematical integers (the products formed are bounded by the square of the
level, overflow is not modelled).  `/` and `%` are `Int.tdiv` and `Int.tmod`.  `none` stands for
undefined behaviour: an access outside a vector or a division by zero.
-/

namespace Eclib.Symb

open Eclib.Arith (bezout posdivs posmod)

/-- `level::reduce` (eclib/moddata.h:45) -/
def reduce (N res : Int) : Int :=
  let r := res.tmod N
  if r < 0 then N + r else r

/-- `xmodmul(long,long,long)` (eclib/xmod.h:195-198) -/
def xmodmul (a b m : Int) : Int := (a * b).tmod m

/-- the loop of `bezout_x` (moddata.cc:57-61) -/
def bezoutXLoop (a b x oldx : Int) : Int × Int :=
  if _h : b = 0 then (a, oldx)
  else
    let q := a.tdiv b
    bezoutXLoop b (a - q * b) (oldx - q * x) x
termination_by b.natAbs
decreasing_by
  have : a - a.tdiv b * b = a.tmod b := by
    have := Int.tmod_add_mul_tdiv a b
    linarith [mul_comm b (a.tdiv b)]
  simp only [this, Int.natAbs_tmod]
  exact Nat.mod_lt _ (Int.natAbs_pos.mpr _h)

/-- `bezout_x` (moddata.cc:55-64): the pair `(gcd, xx)` -/
def bezoutX (aa bb : Int) : Int × Int :=
  let r := bezoutXLoop aa bb 0 1
  if r.1 < 0 then (-r.1, -r.2) else r

/-- the loop of moddata.cc:102-108; the state is `mpower`, `mm`, `mmold`.  It is run with fuel. -/
def mmLoop (m N : Int) : Nat → Int → Int → Int → Option Int
  | 0, _, _, _ => none
  | k + 1, mpower, mm, mmold =>
    if mm ≠ mmold then
      let mpower := xmodmul m mpower N
      mmLoop m N k mpower (Arith.gcd mpower N) mm
    else some mm

/-- the adjustment of `x` to a unit (moddata.cc:99-116) -/
def unitAdjust (N d x : Int) : Option Int :=
  if Arith.gcd x N ≠ 1 then
    let m := N.tdiv d
    match mmLoop m N (N.toNat + 1) m m 1 with
    | none => none
    | some mm =>
      let b := bezout mm (N.tdiv mm)
      let x := (x * b.2.2).tmod mm
      let x := (x * N.tdiv mm).tmod N
      some ((x + b.2.1 * mm).tmod N)
  else some x

/-- the tables filled by the constructor of `moddata` -/
structure Tab where
  /-- `invlist` -/
  inv : List Int
  /-- `noninvlist` -/
  noninv : List Int
  /-- `noninvdlist` -/
  noninvd : List Int
  /-- `gcdtable` -/
  gcds : List Int
  /-- `unitdivlist` -/
  units : List Int

/-- one step of the loop over the residues (moddata.cc:85-119).  Simplification: the vectors are
preallocated in the code and written at increasing positions; here they grow.  A write past the
end of `noninvlist`, of size `size = modulus-phi`, is `none`. -/
def Tab.step (N : Int) (dlist : List Int) (size : Int) (t : Tab) (i : Int) : Option Tab :=
  let r := bezoutX i N
  if r.1 = 1 then
    some { t with inv := t.inv ++ [reduce N r.2], units := t.units ++ [reduce N r.2],
                  gcds := t.gcds ++ [r.1] }
  else if (t.noninv.length : Int) < size then
    match unitAdjust N r.1 r.2 with
    | none => none
    | some u =>
      some { inv := t.inv ++ [-(t.noninv.length : Int)]
             noninv := t.noninv ++ [i]
             noninvd := t.noninvd ++ [if r.1 < N then (dlist.idxOf r.1 : Int) else -1]
             gcds := t.gcds ++ [r.1]
             units := t.units ++ [u] }
  else none

/-- the loop over the residues `i < n` -/
def Tab.fill (N : Int) (dlist : List Int) (size : Int) : Nat → Option Tab
  | 0 => some ⟨[], [], [], [], []⟩
  | n + 1 => (Tab.fill N dlist size n).bind fun t => t.step N dlist size n

/-- class `moddata` (eclib/moddata.h:50-65) -/
structure Moddata extends Tab where
  /-- `modulus` -/
  N : Int
  /-- `dlist` -/
  dlist : List Int
  phi : Int
  psi : Int
  nsymb1 : Int
  nsymb2 : Int

/-- `phi` and `psi` (moddata.cc:70-75) -/
def phiPsi (N : Int) (plist : List Int) : Int × Int :=
  plist.foldl (fun s p => (s.1 - s.1.tdiv p, s.2 + s.2.tdiv p)) (N, N)

/-- the constructor of `moddata` (moddata.cc:66-121); `plist` is the list of primes dividing the
level as returned by `pdivs`, and `dlist` is `posdivs(n)` (moddata.cc:29).  The rest of `level`
(`primelist`, `p0`, `sqfac`, `squarelevel`) is not used by the symbols. -/
def Moddata.make (N : Int) (plist : List Int) : Option Moddata :=
  let dlist := posdivs N plist
  let s := phiPsi N plist
  (Tab.fill N dlist (N - s.1) N.toNat).map fun t =>
    { toTab := { t with noninv := t.noninv ++ List.replicate ((N - s.1).toNat - t.noninv.length) 0 }
      N := N, dlist := dlist, phi := s.1, psi := s.2
      nsymb1 := 2 * N - s.1
      nsymb2 := s.2 - (2 * N - s.1) }

/-- `nsymb` (moddata.cc:76) -/
def Moddata.nsymb (M : Moddata) : Int := M.psi

/-- `moddata::code` (eclib/moddata.h:54) -/
def Moddata.code (M : Moddata) (res : Int) : Option Int := M.inv[(reduce M.N res).toNat]?

/-- `moddata::unitdiv` (eclib/moddata.h:64) -/
def Moddata.unitdiv (M : Moddata) (res : Int) : Option Int := M.units[(reduce M.N res).toNat]?

/-- `moddata::gcd` (eclib/moddata.h:63) -/
def Moddata.gcd (M : Moddata) (res : Int) : Option Int := M.gcds[(reduce M.N res).toNat]?

/-- `symb::normalize` (symb.cc:34-60) -/
def Moddata.normalize (M : Moddata) (c d : Int) : Option (Int × Int) :=
  match M.unitdiv c with
  | none => none
  | some u =>
    let cc := reduce M.N (xmodmul c u M.N)
    if cc = 0 then none
    else if M.N.tdiv cc = 0 then none
    else some (cc, (reduce M.N (xmodmul d u M.N)).tmod (M.N.tdiv cc))

/-- class `symblist` (eclib/symb.h:67-81); the map is an association list -/
structure Symblist where
  list : List (Int × Int)
  hash : List ((Int × Int) × Int)

/-- `symblist::index` (symb.cc:105-115) -/
def Moddata.lookup (M : Moddata) (L : Symblist) (c d : Int) : Option Int :=
  (M.normalize c d).map fun k =>
    match L.hash.lookup k with
    | none => -1
    | some j => j

/-- `symblist::add` (symb.cc:86-103); `maxnum = nsymb2`.  Simplification: the vector grows instead
of being preallocated. -/
def Moddata.add (M : Moddata) (L : Symblist) (c d : Int) : Option Symblist :=
  (M.lookup L c d).bind fun ind =>
    if ind = -1 then
      if (L.list.length : Int) < M.nsymb2 then
        if c = 0 ∨ M.N.tdiv c = 0 then none
        else some { list := L.list ++ [(c, d)]
                    hash := L.hash ++ [((c, posmod d (M.N.tdiv c)), (L.list.length : Int))] }
      else some L
    else some L

/-- one step of the inner loop of the constructor of `symbdata` (symb.cc:140-146).  Once the list
is full the loop ends; this is modelled by doing nothing for the remaining `d`. -/
def Moddata.inner (M : Moddata) (c : Int) (L : Symblist) (d : Int) : Option Symblist :=
  if (L.list.length : Int) < M.nsymb2 then
    if Arith.gcd d c = 1 then M.add L c d else some L
  else some L

/-- one step of the outer loop (symb.cc:136-147) -/
def Moddata.outer (M : Moddata) (L : Symblist) (c : Int) : Option Symblist :=
  if (L.list.length : Int) < M.nsymb2 then M.noninv.tail.foldlM (M.inner c) L else some L

/-- class `symbdata` (eclib/symb.h:83-97) -/
structure Symbdata extends Moddata where
  specials : Symblist

/-- the constructor of `symbdata` (symb.cc:129-155); the entries `dlist[1..ndivs-2]` are used -/
def Symbdata.make (N : Int) (plist : List Int) : Option Symbdata :=
  (Moddata.make N plist).bind fun M =>
    if M.nsymb2 > 0 then
      (M.dlist.tail.dropLast.foldlM M.outer ⟨[], []⟩).map fun L => ⟨M, L⟩
    else some ⟨M, ⟨[], []⟩⟩

/-- `symbdata::index2` (symb.cc:157-178).  The value `dstarts[..]` is not used, but the access is
undefined when the index is out of range. -/
def Symbdata.index2 (S : Symbdata) (c d : Int) : Option Int :=
  match S.code d with
  | none => none
  | some kd =>
    if kd > 0 then some (reduce S.N (xmodmul c kd S.N))
    else
      match S.code c with
      | none => none
      | some kc =>
        if kc > 0 then (S.code (xmodmul kc d S.N)).map fun k => S.N - k
        else
          match S.noninvd[(-kc).toNat]? with
          | none => none
          | some nd =>
            if nd < 0 ∨ (S.dlist.length : Int) ≤ nd then none
            else (S.lookup S.specials c d).map fun ind => S.nsymb1 + ind

/-- `symbdata::symbol` (symb.cc:180-184) -/
def Symbdata.symbol (S : Symbdata) (i : Int) : Option (Int × Int) :=
  if i < 0 then none
  else if i < S.N then some (i, 1)
  else if i < S.nsymb1 then (S.noninv[(i - S.N).toNat]?).map fun d => (1, d)
  else S.specials.list[(i - S.nsymb1).toNat]?

/-- `symbdata::index` (eclib/symb.h:89) -/
def Symbdata.index (S : Symbdata) (s : Int × Int) : Option Int := S.index2 s.1 s.2

/-- `symbdata::rof` (eclib/symb.h:93) -/
def Symbdata.rof (S : Symbdata) (i : Int) : Option Int :=
  (S.symbol i).bind fun s => S.index2 s.2 s.1

/-- `symbdata::rsof` (eclib/symb.h:94) -/
def Symbdata.rsof (S : Symbdata) (i : Int) : Option Int :=
  (S.symbol i).bind fun s => S.index2 (-s.1) s.2

/-- `symbdata::sof` (eclib/symb.h:95) -/
def Symbdata.sof (S : Symbdata) (i : Int) : Option Int :=
  (S.symbol i).bind fun s => S.index2 (-s.2) s.1

/-- `symbdata::tof` (eclib/symb.h:96) -/
def Symbdata.tof (S : Symbdata) (i : Int) : Option Int :=
  (S.symbol i).bind fun s => S.index2 (s.1 - s.2) s.1

end Eclib.Symb
