import Verif.Hom.SymModel

/-!
# Model of homspace.cc: the Heilbronn matrices (homspace.cc:1269-1716) and `newheckeop`
-/

namespace Eclib.Hom

open Svec (SV)

/-- homspace.cc:1279-1283 -/
def heil2 : List M22 :=
  [⟨2, 0, 0, 1⟩, ⟨2, 1, 0, 1⟩, ⟨1, 0, 1, 2⟩, ⟨1, 0, 0, 2⟩]

/-- homspace.cc:1284-1292 -/
def heil3 : List M22 :=
  [⟨1, 0, 0, 3⟩, ⟨3, 1, 0, 1⟩, ⟨1, 0, 1, 3⟩, ⟨3, 0, 0, 1⟩, ⟨3, -1, 0, 1⟩, ⟨-1, 0, 1, -3⟩]

/-- homspace.cc:1293-1307 -/
def heil5 : List M22 :=
  [⟨1, 0, 0, 5⟩, ⟨5, 2, 0, 1⟩, ⟨2, 1, 1, 3⟩, ⟨1, 0, 3, 5⟩, ⟨5, 1, 0, 1⟩, ⟨1, 0, 1, 5⟩,
    ⟨5, 0, 0, 1⟩, ⟨5, -1, 0, 1⟩, ⟨-1, 0, 1, -5⟩, ⟨5, -2, 0, 1⟩, ⟨-2, 1, 1, -3⟩, ⟨1, 0, -3, 5⟩]

/-- homspace.cc:1308-1328 -/
def heil7 : List M22 :=
  [⟨1, 0, 0, 7⟩, ⟨7, 3, 0, 1⟩, ⟨3, -1, 1, 2⟩, ⟨-1, 0, 2, -7⟩, ⟨7, 2, 0, 1⟩, ⟨2, 1, 1, 4⟩,
    ⟨1, 0, 4, 7⟩, ⟨7, 1, 0, 1⟩, ⟨1, 0, 1, 7⟩, ⟨7, 0, 0, 1⟩, ⟨7, -1, 0, 1⟩, ⟨-1, 0, 1, -7⟩,
    ⟨7, -2, 0, 1⟩, ⟨-2, 1, 1, -4⟩, ⟨1, 0, -4, 7⟩, ⟨7, -3, 0, 1⟩, ⟨-3, -1, 1, -2⟩, ⟨-1, 0, -2, -7⟩]

/-- homspace.cc:1329-1361 -/
def heil11 : List M22 :=
  [⟨1, 0, 0, 11⟩, ⟨11, 5, 0, 1⟩, ⟨5, -1, 1, 2⟩, ⟨-1, 0, 2, -11⟩, ⟨11, 4, 0, 1⟩, ⟨4, 1, 1, 3⟩,
    ⟨1, 0, 3, 11⟩, ⟨11, 3, 0, 1⟩, ⟨3, 1, 1, 4⟩, ⟨1, 0, 4, 11⟩, ⟨11, 2, 0, 1⟩, ⟨2, 1, 1, 6⟩,
    ⟨1, 0, 6, 11⟩, ⟨11, 1, 0, 1⟩, ⟨1, 0, 1, 11⟩, ⟨11, 0, 0, 1⟩, ⟨11, -1, 0, 1⟩, ⟨-1, 0, 1, -11⟩,
    ⟨11, -2, 0, 1⟩, ⟨-2, 1, 1, -6⟩, ⟨1, 0, -6, 11⟩, ⟨11, -3, 0, 1⟩, ⟨-3, 1, 1, -4⟩, ⟨1, 0, -4, 11⟩,
    ⟨11, -4, 0, 1⟩, ⟨-4, 1, 1, -3⟩, ⟨1, 0, -3, 11⟩, ⟨11, -5, 0, 1⟩, ⟨-5, -1, 1, -2⟩, ⟨-1, 0, -2, -11⟩]

/-- homspace.cc:1362-1402 -/
def heil13 : List M22 :=
  [⟨1, 0, 0, 13⟩, ⟨13, 6, 0, 1⟩, ⟨6, -1, 1, 2⟩, ⟨-1, 0, 2, -13⟩, ⟨13, 5, 0, 1⟩, ⟨5, 2, 1, 3⟩,
    ⟨2, -1, 3, 5⟩, ⟨-1, 0, 5, -13⟩, ⟨13, 4, 0, 1⟩, ⟨4, -1, 1, 3⟩, ⟨-1, 0, 3, -13⟩, ⟨13, 3, 0, 1⟩,
    ⟨3, -1, 1, 4⟩, ⟨-1, 0, 4, -13⟩, ⟨13, 2, 0, 1⟩, ⟨2, 1, 1, 7⟩, ⟨1, 0, 7, 13⟩, ⟨13, 1, 0, 1⟩,
    ⟨1, 0, 1, 13⟩, ⟨13, 0, 0, 1⟩, ⟨13, -1, 0, 1⟩, ⟨-1, 0, 1, -13⟩, ⟨13, -2, 0, 1⟩, ⟨-2, 1, 1, -7⟩,
    ⟨1, 0, -7, 13⟩, ⟨13, -3, 0, 1⟩, ⟨-3, -1, 1, -4⟩, ⟨-1, 0, -4, -13⟩, ⟨13, -4, 0, 1⟩, ⟨-4, -1, 1, -3⟩,
    ⟨-1, 0, -3, -13⟩, ⟨13, -5, 0, 1⟩, ⟨-5, 2, 1, -3⟩, ⟨2, -1, -3, 8⟩, ⟨-1, 0, 8, -13⟩, ⟨13, -6, 0, 1⟩,
    ⟨-6, -1, 1, -2⟩, ⟨-1, 0, -2, -13⟩]

/-- homspace.cc:1403-1457 -/
def heil17 : List M22 :=
  [⟨1, 0, 0, 17⟩, ⟨17, 8, 0, 1⟩, ⟨8, -1, 1, 2⟩, ⟨-1, 0, 2, -17⟩, ⟨17, 7, 0, 1⟩, ⟨7, -3, 1, 2⟩,
    ⟨-3, -1, 2, -5⟩, ⟨-1, 0, -5, -17⟩, ⟨17, 6, 0, 1⟩, ⟨6, 1, 1, 3⟩, ⟨1, 0, 3, 17⟩, ⟨17, 5, 0, 1⟩,
    ⟨5, -2, 1, 3⟩, ⟨-2, -1, 3, -7⟩, ⟨-1, 0, -7, -17⟩, ⟨17, 4, 0, 1⟩, ⟨4, -1, 1, 4⟩, ⟨-1, 0, 4, -17⟩,
    ⟨17, 3, 0, 1⟩, ⟨3, 1, 1, 6⟩, ⟨1, 0, 6, 17⟩, ⟨17, 2, 0, 1⟩, ⟨2, 1, 1, 9⟩, ⟨1, 0, 9, 17⟩,
    ⟨17, 1, 0, 1⟩, ⟨1, 0, 1, 17⟩, ⟨17, 0, 0, 1⟩, ⟨17, -1, 0, 1⟩, ⟨-1, 0, 1, -17⟩, ⟨17, -2, 0, 1⟩,
    ⟨-2, 1, 1, -9⟩, ⟨1, 0, -9, 17⟩, ⟨17, -3, 0, 1⟩, ⟨-3, 1, 1, -6⟩, ⟨1, 0, -6, 17⟩, ⟨17, -4, 0, 1⟩,
    ⟨-4, -1, 1, -4⟩, ⟨-1, 0, -4, -17⟩, ⟨17, -5, 0, 1⟩, ⟨-5, -2, 1, -3⟩, ⟨-2, -1, -3, -10⟩, ⟨-1, 0, -10, -17⟩,
    ⟨17, -6, 0, 1⟩, ⟨-6, 1, 1, -3⟩, ⟨1, 0, -3, 17⟩, ⟨17, -7, 0, 1⟩, ⟨-7, -3, 1, -2⟩, ⟨-3, 1, -2, -5⟩,
    ⟨1, 0, -5, 17⟩, ⟨17, -8, 0, 1⟩, ⟨-8, -1, 1, -2⟩, ⟨-1, 0, -2, -17⟩]

/-- homspace.cc:1458-1518 -/
def heil19 : List M22 :=
  [⟨1, 0, 0, 19⟩, ⟨19, 9, 0, 1⟩, ⟨9, -1, 1, 2⟩, ⟨-1, 0, 2, -19⟩, ⟨19, 8, 0, 1⟩, ⟨8, -3, 1, 2⟩,
    ⟨-3, 1, 2, -7⟩, ⟨1, 0, -7, 19⟩, ⟨19, 7, 0, 1⟩, ⟨7, 2, 1, 3⟩, ⟨2, -1, 3, 8⟩, ⟨-1, 0, 8, -19⟩,
    ⟨19, 6, 0, 1⟩, ⟨6, -1, 1, 3⟩, ⟨-1, 0, 3, -19⟩, ⟨19, 5, 0, 1⟩, ⟨5, 1, 1, 4⟩, ⟨1, 0, 4, 19⟩,
    ⟨19, 4, 0, 1⟩, ⟨4, 1, 1, 5⟩, ⟨1, 0, 5, 19⟩, ⟨19, 3, 0, 1⟩, ⟨3, -1, 1, 6⟩, ⟨-1, 0, 6, -19⟩,
    ⟨19, 2, 0, 1⟩, ⟨2, 1, 1, 10⟩, ⟨1, 0, 10, 19⟩, ⟨19, 1, 0, 1⟩, ⟨1, 0, 1, 19⟩, ⟨19, 0, 0, 1⟩,
    ⟨19, -1, 0, 1⟩, ⟨-1, 0, 1, -19⟩, ⟨19, -2, 0, 1⟩, ⟨-2, 1, 1, -10⟩, ⟨1, 0, -10, 19⟩, ⟨19, -3, 0, 1⟩,
    ⟨-3, -1, 1, -6⟩, ⟨-1, 0, -6, -19⟩, ⟨19, -4, 0, 1⟩, ⟨-4, 1, 1, -5⟩, ⟨1, 0, -5, 19⟩, ⟨19, -5, 0, 1⟩,
    ⟨-5, 1, 1, -4⟩, ⟨1, 0, -4, 19⟩, ⟨19, -6, 0, 1⟩, ⟨-6, -1, 1, -3⟩, ⟨-1, 0, -3, -19⟩, ⟨19, -7, 0, 1⟩,
    ⟨-7, 2, 1, -3⟩, ⟨2, -1, -3, 11⟩, ⟨-1, 0, 11, -19⟩, ⟨19, -8, 0, 1⟩, ⟨-8, -3, 1, -2⟩, ⟨-3, -1, -2, -7⟩,
    ⟨-1, 0, -7, -19⟩, ⟨19, -9, 0, 1⟩, ⟨-9, -1, 1, -2⟩, ⟨-1, 0, -2, -19⟩]

/-- homspace.cc:1519-1595 -/
def heil23 : List M22 :=
  [⟨1, 0, 0, 23⟩, ⟨23, 11, 0, 1⟩, ⟨11, -1, 1, 2⟩, ⟨-1, 0, 2, -23⟩, ⟨23, 10, 0, 1⟩, ⟨10, -3, 1, 2⟩,
    ⟨-3, -1, 2, -7⟩, ⟨-1, 0, -7, -23⟩, ⟨23, 9, 0, 1⟩, ⟨9, 4, 1, 3⟩, ⟨4, -1, 3, 5⟩, ⟨-1, 0, 5, -23⟩,
    ⟨23, 8, 0, 1⟩, ⟨8, 1, 1, 3⟩, ⟨1, 0, 3, 23⟩, ⟨23, 7, 0, 1⟩, ⟨7, -2, 1, 3⟩, ⟨-2, -1, 3, -10⟩,
    ⟨-1, 0, -10, -23⟩, ⟨23, 6, 0, 1⟩, ⟨6, 1, 1, 4⟩, ⟨1, 0, 4, 23⟩, ⟨23, 5, 0, 1⟩, ⟨5, 2, 1, 5⟩,
    ⟨2, -1, 5, 9⟩, ⟨-1, 0, 9, -23⟩, ⟨23, 4, 0, 1⟩, ⟨4, 1, 1, 6⟩, ⟨1, 0, 6, 23⟩, ⟨23, 3, 0, 1⟩,
    ⟨3, 1, 1, 8⟩, ⟨1, 0, 8, 23⟩, ⟨23, 2, 0, 1⟩, ⟨2, 1, 1, 12⟩, ⟨1, 0, 12, 23⟩, ⟨23, 1, 0, 1⟩,
    ⟨1, 0, 1, 23⟩, ⟨23, 0, 0, 1⟩, ⟨23, -1, 0, 1⟩, ⟨-1, 0, 1, -23⟩, ⟨23, -2, 0, 1⟩, ⟨-2, 1, 1, -12⟩,
    ⟨1, 0, -12, 23⟩, ⟨23, -3, 0, 1⟩, ⟨-3, 1, 1, -8⟩, ⟨1, 0, -8, 23⟩, ⟨23, -4, 0, 1⟩, ⟨-4, 1, 1, -6⟩,
    ⟨1, 0, -6, 23⟩, ⟨23, -5, 0, 1⟩, ⟨-5, 2, 1, -5⟩, ⟨2, -1, -5, 14⟩, ⟨-1, 0, 14, -23⟩, ⟨23, -6, 0, 1⟩,
    ⟨-6, 1, 1, -4⟩, ⟨1, 0, -4, 23⟩, ⟨23, -7, 0, 1⟩, ⟨-7, -2, 1, -3⟩, ⟨-2, -1, -3, -13⟩, ⟨-1, 0, -13, -23⟩,
    ⟨23, -8, 0, 1⟩, ⟨-8, 1, 1, -3⟩, ⟨1, 0, -3, 23⟩, ⟨23, -9, 0, 1⟩, ⟨-9, 4, 1, -3⟩, ⟨4, 1, -3, 5⟩,
    ⟨1, 0, 5, 23⟩, ⟨23, -10, 0, 1⟩, ⟨-10, -3, 1, -2⟩, ⟨-3, 1, -2, -7⟩, ⟨1, 0, -7, 23⟩, ⟨23, -11, 0, 1⟩,
    ⟨-11, -1, 1, -2⟩, ⟨-1, 0, -2, -23⟩]

/-- homspace.cc:1596-1694 -/
def heil29 : List M22 :=
  [⟨1, 0, 0, 29⟩, ⟨29, 14, 0, 1⟩, ⟨14, -1, 1, 2⟩, ⟨-1, 0, 2, -29⟩, ⟨29, 13, 0, 1⟩, ⟨13, -3, 1, 2⟩,
    ⟨-3, -1, 2, -9⟩, ⟨-1, 0, -9, -29⟩, ⟨29, 12, 0, 1⟩, ⟨12, -5, 1, 2⟩, ⟨-5, -2, 2, -5⟩, ⟨-2, 1, -5, -12⟩,
    ⟨1, 0, -12, 29⟩, ⟨29, 11, 0, 1⟩, ⟨11, 4, 1, 3⟩, ⟨4, 1, 3, 8⟩, ⟨1, 0, 8, 29⟩, ⟨29, 10, 0, 1⟩,
    ⟨10, 1, 1, 3⟩, ⟨1, 0, 3, 29⟩, ⟨29, 9, 0, 1⟩, ⟨9, -2, 1, 3⟩, ⟨-2, -1, 3, -13⟩, ⟨-1, 0, -13, -29⟩,
    ⟨29, 8, 0, 1⟩, ⟨8, 3, 1, 4⟩, ⟨3, 1, 4, 11⟩, ⟨1, 0, 11, 29⟩, ⟨29, 7, 0, 1⟩, ⟨7, -1, 1, 4⟩,
    ⟨-1, 0, 4, -29⟩, ⟨29, 6, 0, 1⟩, ⟨6, 1, 1, 5⟩, ⟨1, 0, 5, 29⟩, ⟨29, 5, 0, 1⟩, ⟨5, 1, 1, 6⟩,
    ⟨1, 0, 6, 29⟩, ⟨29, 4, 0, 1⟩, ⟨4, -1, 1, 7⟩, ⟨-1, 0, 7, -29⟩, ⟨29, 3, 0, 1⟩, ⟨3, 1, 1, 10⟩,
    ⟨1, 0, 10, 29⟩, ⟨29, 2, 0, 1⟩, ⟨2, 1, 1, 15⟩, ⟨1, 0, 15, 29⟩, ⟨29, 1, 0, 1⟩, ⟨1, 0, 1, 29⟩,
    ⟨29, 0, 0, 1⟩, ⟨29, -1, 0, 1⟩, ⟨-1, 0, 1, -29⟩, ⟨29, -2, 0, 1⟩, ⟨-2, 1, 1, -15⟩, ⟨1, 0, -15, 29⟩,
    ⟨29, -3, 0, 1⟩, ⟨-3, 1, 1, -10⟩, ⟨1, 0, -10, 29⟩, ⟨29, -4, 0, 1⟩, ⟨-4, -1, 1, -7⟩, ⟨-1, 0, -7, -29⟩,
    ⟨29, -5, 0, 1⟩, ⟨-5, 1, 1, -6⟩, ⟨1, 0, -6, 29⟩, ⟨29, -6, 0, 1⟩, ⟨-6, 1, 1, -5⟩, ⟨1, 0, -5, 29⟩,
    ⟨29, -7, 0, 1⟩, ⟨-7, -1, 1, -4⟩, ⟨-1, 0, -4, -29⟩, ⟨29, -8, 0, 1⟩, ⟨-8, 3, 1, -4⟩, ⟨3, -1, -4, 11⟩,
    ⟨-1, 0, 11, -29⟩, ⟨29, -9, 0, 1⟩, ⟨-9, -2, 1, -3⟩, ⟨-2, -1, -3, -16⟩, ⟨-1, 0, -16, -29⟩, ⟨29, -10, 0, 1⟩,
    ⟨-10, 1, 1, -3⟩, ⟨1, 0, -3, 29⟩, ⟨29, -11, 0, 1⟩, ⟨-11, 4, 1, -3⟩, ⟨4, -1, -3, 8⟩, ⟨-1, 0, 8, -29⟩,
    ⟨29, -12, 0, 1⟩, ⟨-12, -5, 1, -2⟩, ⟨-5, 2, -2, -5⟩, ⟨2, 1, -5, 12⟩, ⟨1, 0, 12, 29⟩, ⟨29, -13, 0, 1⟩,
    ⟨-13, -3, 1, -2⟩, ⟨-3, 1, -2, -9⟩, ⟨1, 0, -9, 29⟩, ⟨29, -14, 0, 1⟩, ⟨-14, -1, 1, -2⟩, ⟨-1, 0, -2, -29⟩]

/-- `matop(long p)` (homspace.cc:1269-1716): tables up to 29, the default case otherwise -/
def matopH (p : ℤ) : List M22 :=
  if p = 2 then heil2
  else if p = 3 then heil3
  else if p = 5 then heil5
  else if p = 7 then heil7
  else if p = 11 then heil11
  else if p = 13 then heil13
  else if p = 17 then heil17
  else if p = 19 then heil19
  else if p = 23 then heil23
  else if p = 29 then heil29
  else heilDefault p

/-- A matrix with given rows (`rows = true`) or columns -/
structure OpMat where
  vecs : List SV
  rows : Bool
deriving DecidableEq, Repr

/-- the entry in row `i` and column `j`, from 1 -/
def OpMat.entry (A : OpMat) (i j : ℕ) : Option ℤ :=
  if A.rows then (A.vecs[i - 1]?).map fun v => Svec.elem v j else (A.vecs[j - 1]?).map fun v => Svec.elem v i

/-- `heckeop(p, dual, display)` for a space which is not cuspidal (homspace.cc:646-666, 747-752): the columns are the
images of the generators, and `dual` means the transpose -/
def Space.heckeopM (H : Space) (p : ℤ) (dual : Bool) : Option OpMat := (H.heckeop p).map fun l => ⟨l, dual⟩

/-- `wop(q, dual, display)` (homspace.cc:827-831); the argument `display` only prints -/
def Space.wop (H : Space) (p : ℤ) (dual : Bool) (_display : Bool) : Option OpMat := H.heckeopM p dual

/-- `newheckeop(p, dual, display)` for a space which is not cuspidal (homspace.cc:805-825).  For `p` dividing the
level `wop(p,display)` is called, so that `display` takes the place of `dual`. -/
def Space.newheckeop (H : Space) (p : ℤ) (dual display : Bool) : Option OpMat :=
  if H.S.N.tmod p = 0 then H.wop p display false else (H.newhecke (matopH p)).map fun l => ⟨l, dual⟩

end Eclib.Hom
