import Verif.Egr.Model
import Verif.Egr.ImgModel

/-!
# Model of `egr_index` (egr.cc:489-576)

The points are assumed to be on the minimal model: the change of model at the start (egr.cc:499-518) is not modelled.
-/

namespace Eclib.Egr

variable {A : Type} [AddCommGroup A] [DecidableEq A]

/-- the columns contributed by the place `p`, each with its modulus: `MapPointsToComponentGroup` (egr.cc:589-681) and the entries of
`ComponentGroup(p)` (egr.cc:546-548) -/
def placeCols (E : Env A) (pts : List A) (p : ℤ) : Option (List (ℕ × List ℤ)) :=
  let G := componentGroup E p
  if G.length = 1 then
    if G.headD 0 = 1 then some [(1, pts.map (fun _ => 0))]
    else some [(G.headD 0, mapCyc E p G pts)]
  else (mapNc E p pts []).map (fun im => [(2, im.map (·.1)), (2, im.map (·.2))])

/-- the columns of all the places (egr.cc:536-549) -/
def allCols (E : Env A) (pts : List A) : List ℤ → Option (List (ℕ × List ℤ))
  | [] => some []
  | p :: ps => (placeCols E pts p).bind (fun c => (allCols E pts ps).map (c ++ ·))

/-- the matrix with the given columns (egr.cc:553-563) -/
def colsMat (cols : List (ℕ × List ℤ)) : M := fun i j => (cols.getD j (1, [])).2.getD i 0

/-- `egr_index` (egr.cc:489-576) -/
def egrIndex (E : Env A) (bad : List ℤ) (pts : List A) (realToo : Bool) : Option ℤ :=
  if pts.length = 0 then some 1
  else (allCols E pts (if realToo && E.conncomp == 2 then bad ++ [0] else bad)).bind (fun cols =>
    compMapImage (fun j => (cols.getD j (1, [])).1) pts.length cols.length (colsMat cols))

end Eclib.Egr
