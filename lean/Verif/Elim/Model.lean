import Verif.Smat.Model

/-!
# Model of libsrc/smat_elim.cc: structured elimination of sparse matrices modulo p

A row of the matrix (`col[r]`, `val[r]`) is the list of its entries `(column, value)`, columns counted
from 1 as in the code; the arrays written by `clear_col` and `elim` have room for all entries of both
rows, so their bounds are not modelled.  The lists of rows of the columns (`ordlist`) are modelled with
their arrays: `none` is a cell not yet written, and reading such a cell or accessing a cell outside an
array gives the outcome `none`.  The plain lists (`list`, which grow as needed and are read by `next`)
are lists.  Rows are counted from 0.  The outcome `none` also stands for every message of the form
"error in ..." of the code.  In `position` and `elim_col` the value -1 is `none`.  Scalars are unbounded
integers; the type `T` selects the scalar functions (`Verif.Svec.Model`).  Loops over growing lists take
fuel; `none` when it runs out.
-/

namespace Eclib.Elim

open Svec (T smod)

/-! ## scalars -/

/-- `xmm(a,b,m)` (arith.h:169-176, 192-199, marith.h:184-191) -/
def xmm (t : T) (a b m : ℤ) : ℤ :=
  if a = 1 then b
  else if a = -1 then -b
  else if b = 1 then a
  else if b = -1 then -a
  else match t with
    | .big => (a * b).fmod m
    | _ => (a * b).tmod m

/-- `addmod(a,b,m)` (arith.h:178-190, marith.h:177-182) -/
def addmod (t : T) (a b m : ℤ) : ℤ :=
  if a = 0 then b else if b = 0 then a else smod t (a + b) m

/-! ## class `list` and class `ordlist` (smat_elim.h:38-73) -/

/-- read a cell -/
def rd (a : List (Option ℕ)) (i : ℕ) : Option ℕ := (a[i]?).join

/-- write a cell -/
def wr (a : List (Option ℕ)) (i x : ℕ) : Option (List (Option ℕ)) :=
  if i < a.length then some (a.set i (some x)) else none

/-- `memmove(a+dest, a+src, n*sizeof(type))` -/
def memmove (a : List (Option ℕ)) (dest src n : ℕ) : Option (List (Option ℕ)) :=
  if dest + n ≤ a.length ∧ src + n ≤ a.length then
    some (a.take dest ++ (a.drop src).take n ++ a.drop (dest + n))
  else none

/-- read `n` cells from cell `i` on -/
def rdRange (a : List (Option ℕ)) (i : ℕ) : ℕ → Option (List ℕ)
  | 0 => some []
  | n + 1 =>
    match rd a i, rdRange a (i + 1) n with
    | some x, some l => some (x :: l)
    | _, _ => none

/-- an `ordlist`: its array (of length `maxsize`), the number of elements, the index of `next` -/
structure OL where
  arr : List (Option ℕ)
  num : ℕ
  index : ℕ
deriving DecidableEq

/-- `list(m)` and `clear(m)` (smat_elim.cc:71-80) -/
def OL.new (m : ℕ) : OL := ⟨List.replicate m none, 0, 0⟩

/-- `grow` (smat_elim.cc:84-102); `ls` is the static member `listsize` -/
def OL.grow (ls : ℕ) (l : OL) : OL :=
  { l with arr := l.arr ++ List.replicate (if l.arr.length = 0 then ls else l.arr.length / 2 + 1) none }

/-- the loop of `find` (smat_elim.cc:119-122) -/
def findLoop (a : List (Option ℕ)) (X : ℕ) : ℕ → ℕ → ℕ → Option ℕ
  | 0, _, _ => none
  | f + 1, ub, lb =>
    match rd a lb with
    | none => none
    | some y =>
      if y < X then
        match rd a ((ub + lb) / 2) with
        | none => none
        | some z => if z < X then findLoop a X f ub ((ub + lb) / 2 + 1) else findLoop a X f ((ub + lb) / 2) lb
      else some lb

/-- `list::find(X,ub,lb)` (smat_elim.cc:104-127) -/
def find (a : List (Option ℕ)) (X ub lb : ℕ) : Option ℕ :=
  match rd a ub with
  | none => none
  | some y => if y < X then some (ub + 1) else findLoop a X (a.length + 1) ub lb

/-- `find(X,num-1,lb)`; cell -1 is read if the list is empty -/
def OL.find (l : OL) (X lb : ℕ) : Option ℕ := if l.num = 0 then none else Elim.find l.arr X (l.num - 1) lb

/-- `list::put(X)` (smat_elim.h:46-54): append -/
def OL.append (ls : ℕ) (l : OL) (X : ℕ) : Option OL :=
  let l := if l.arr.length ≤ l.num then l.grow ls else l
  (wr l.arr l.num X).map fun a => { l with arr := a, num := l.num + 1 }

/-- `ordlist::put(X)` (smat_elim.cc:132-159).  The call of `memmove` shifts `num-ind` cells from cell
`num-1` on, where the cells from `ind` on are meant. -/
def OL.put (ls : ℕ) (l : OL) (X : ℕ) : Option OL :=
  let l := if l.num = l.arr.length then l.grow ls else l
  if l.num = 0 then (wr l.arr 0 X).map fun a => { l with arr := a, num := l.num + 1 }
  else
    match l.find X 0 with
    | none => none
    | some ind =>
      if ind = l.num ∨ rd l.arr ind ≠ some X then
        ((memmove l.arr l.num (l.num - 1) (l.num - ind)).bind fun a => wr a ind X).map
          fun a => { l with arr := a, num := l.num + 1 }
      else some l

/-- the loop of `ordlist::put(list&)` over the elements of `L` (smat_elim.cc:184-193): `index` of this
list and the cells written to the new array.  The cell with index `ind` is read also when `ind = num`. -/
def putLoop (l : OL) : List ℕ → ℕ → ℕ → List ℕ → Option (ℕ × List ℕ)
  | [], _, index, out => some (index, out)
  | X :: L, ind, index, out =>
    match l.find X ind with
    | none => none
    | some ind =>
      match rd l.arr ind with
      | none => none
      | some y =>
        if y ≠ X then
          match rdRange l.arr index (ind - index) with
          | none => none
          | some s => putLoop l L ind (max index ind) (out ++ s ++ [X])
        else putLoop l L ind index out

/-- `ordlist::put(list&)` (smat_elim.cc:161-203) -/
def OL.putList (ls : ℕ) (l : OL) (L : List ℕ) : Option OL :=
  if L = [] then some l
  else if l.num = 0 then
    (L.foldlM (fun l X => OL.put ls l X) { l with index := 0 }).map fun l => { l with num := L.length }
  else
    match putLoop l L 0 0 [] with
    | none => none
    | some (index, out) =>
      match rdRange l.arr index (l.num - index) with
      | none => none
      | some s =>
        let out := out ++ s
        if out.length ≤ l.arr.length + L.length then
          some ⟨out.map some ++ List.replicate (l.arr.length + L.length - out.length) none, out.length, 0⟩
        else none

/-- `ordlist::remove(X)` (smat_elim.cc:205-230) -/
def OL.remove (l : OL) (X : ℕ) : Option OL :=
  match l.find X 0 with
  | none => none
  | some ind =>
    if rd l.arr ind ≠ some X then none
    else (memmove l.arr ind (ind + 1) (l.num - 1 - ind)).map fun a => { l with arr := a, num := l.num - 1 }

/-- the loop of `ordlist::remove(list&)` (smat_elim.cc:253-264): the array, the position `ar` and
`index` -/
def removeLoop (num : ℕ) : List ℕ → List (Option ℕ) → ℕ → ℕ → ℕ → Option (List (Option ℕ) × ℕ × ℕ)
  | [], a, ar, index, _ => some (a, ar, index)
  | X :: L, a, ar, index, ind2 =>
    match find a X (num - 1) ind2 with
    | none => none
    | some ind2 =>
      if rd a ind2 ≠ some X then none
      else
        match memmove a ar index (ind2 - index) with
        | none => none
        | some a => removeLoop num L a (ar + (ind2 - index)) (max index ind2 + 1) ind2

/-- `ordlist::remove(list&)` (smat_elim.cc:232-271) -/
def OL.removeList (l : OL) : List ℕ → Option OL
  | [] => some l
  | X :: L =>
    match l.find X 0 with
    | none => none
    | some ind1 =>
      if rd l.arr ind1 ≠ some X then none
      else
        match removeLoop l.num L l.arr ind1 (ind1 + 1) ind1 with
        | none => none
        | some (a, ar, index) =>
          (memmove a ar index (l.num - index)).map fun a => ⟨a, ar + (l.num - index), 0⟩

/-- `next` (smat_elim.h:57-59): `none` instead of -1 -/
def OL.next (l : OL) : Option (ℕ × OL) :=
  if l.index < l.num then (rd l.arr l.index).map fun x => (x, { l with index := l.index + 1 }) else none

/-! ## rows -/

/-- entries of a row -/
abbrev Row := List (ℕ × ℤ)

/-- `find(X, col[r]+1, d-1)` (smatrix_elim.h:32-40) -/
def rowFind (l : Row) (X : ℕ) : Option ℕ :=
  let a := l.map fun e => some e.1
  match rd a (l.length - 1) with
  | none => none
  | some y => if y < X then some (l.length - 1) else findLoop a X (a.length + 1) (l.length - 1) 0

/-- the value found with the column `X` by `rowFind`, with its index -/
def rowLook (l : Row) (X : ℕ) : Option (ℕ × ℤ) :=
  match rowFind l X with
  | none => none
  | some k =>
    match l[k]? with
    | none => none
    | some e => if e.1 ≠ X then none else some (k, e.2)

/-- `normalize` (smat_elim.cc:970-981) -/
def normalize (X : Marith.XGcd) (t : T) (p : ℤ) (l : Row) (col0 : ℕ) : Option Row :=
  match rowLook l col0 with
  | none => none
  | some (_, v) =>
    if v ≠ 1 then some (l.map fun e => (e.1, xmm t e.2 (Mat.sinvmod X t v p) p)) else some l

/-- what happens to a column of the row which is added: `row2` is put into `list_row_in`, into
`list_row_out` or into none of them -/
inductive Ev | isIn | isOut | stay
deriving DecidableEq

/-- `row2 += v2*row1` (smat_elim.cc:1038-1062, and 1193-1211 in `elim`), with the events for the
columns of `row1` -/
def merge (t : T) (p v2 : ℤ) : Row → Row → Row × List Ev
  | [], r2 => (r2, [])
  | (c1, x1) :: r1, [] =>
    let r := merge t p v2 r1 []
    ((c1, xmm t v2 x1 p) :: r.1, Ev.isIn :: r.2)
  | (c1, x1) :: r1, (c2, x2) :: r2 =>
    if c1 < c2 then
      let r := merge t p v2 r1 ((c2, x2) :: r2)
      ((c1, xmm t v2 x1 p) :: r.1, Ev.isIn :: r.2)
    else if c2 < c1 then
      let r := merge t p v2 ((c1, x1) :: r1) r2
      ((c2, x2) :: r.1, r.2)
    else
      let r := merge t p v2 r1 r2
      let s := addmod t (xmm t v2 x1 p) x2 p
      if s = 0 then (r.1, Ev.isOut :: r.2) else ((c2, s) :: r.1, Ev.stay :: r.2)
termination_by r1 r2 => r1.length + r2.length

/-! ## the state -/

/-- class `smat_elim`; `elimRow` has the `rank` entries of `elim_row` that are set -/
structure St where
  nco : ℕ
  rows : List Row
  column : List OL
  position : List (Option ℕ)
  elimCol : List (Option ℕ)
  elimRow : List ℕ

/-- `column[c-1].list::put(r)` for the entries of row `r` (smat_elim.cc:292-296) -/
def initRow (r : ℕ) (cols : List OL) (l : Row) : Option (List OL) :=
  l.foldlM (fun cols e =>
    if e.1 = 0 then none
    else match cols[e.1 - 1]? with
      | none => none
      | some ol => (ol.append 10 r).map fun ol => cols.set (e.1 - 1) ol) cols

/-- `init` (smat_elim.cc:273-301) -/
def init (nco : ℕ) (rows : List Row) : Option St :=
  (rows.zipIdx.foldlM (fun cols (e : Row × ℕ) => initRow e.2 cols e.1) (List.replicate nco (OL.new 10))).map
    fun cols => ⟨nco, rows, cols, List.replicate rows.length none, List.replicate nco none, []⟩

/-- `eliminate(row,col0)` (smat_elim.cc:983-989) -/
def eliminate (s : St) (row col0 : ℕ) : Option St :=
  if 1 ≤ col0 ∧ col0 - 1 < s.elimCol.length ∧ row < s.position.length ∧ s.elimRow.length < s.rows.length then
    some { s with
      elimCol := s.elimCol.set (col0 - 1) (some row)
      position := s.position.set row (some col0)
      elimRow := s.elimRow ++ [row] }
  else none

/-- `free_space(col0)` (smat_elim.cc:1090-1093) -/
def freeSpace (s : St) (col0 : ℕ) : Option St :=
  if 1 ≤ col0 ∧ col0 - 1 < s.column.length then
    some { s with column := s.column.set (col0 - 1) (OL.new 0) }
  else none

/-- `(column+col0-1)->next()` -/
def colNext (s : St) (col0 : ℕ) : Option (ℕ × St) :=
  if col0 = 0 then none
  else (s.column[col0 - 1]?).bind fun ol => ol.next.map fun r => (r.1, { s with column := s.column.set (col0 - 1) r.2 })

/-! ## step 0 -/

/-- clear column `colr` in the rows `is` other than `row` (smat_elim.cc:739-749) -/
def clear0 (row colr : ℕ) : List ℕ → List Row → List ℕ → Option (List Row × List ℕ)
  | [], rows, q => some (rows, q)
  | i :: is, rows, q =>
    if i = row then clear0 row colr is rows q
    else
      match rows[i]? with
      | none => none
      | some l =>
        match rowLook l colr with
        | none => none
        | some (k, _) => clear0 row colr is (rows.set i (l.eraseIdx k)) (if l.length = 2 then q ++ [i] else q)

/-- one element of the list of `step0` (smat_elim.cc:729-753); the new state and list -/
def step0One (s : St) (row : ℕ) (q : List ℕ) : Option (St × List ℕ) :=
  match s.rows[row]? with
  | none => none
  | some [] => if row < s.position.length then some ({ s with position := s.position.set row (some 0) }, q) else none
  | some ((colr, _) :: l) =>
    let rows := s.rows.set row ((colr, 1) :: l)
    if colr = 0 then none
    else
      match s.column[colr - 1]? with
      | none => none
      | some ol =>
        if ol.num < ol.index + ol.num then none  -- `next` would return -1
        else
          match rdRange ol.arr ol.index ol.num with
          | none => none
          | some is =>
            match clear0 row colr is rows q with
            | none => none
            | some (rows, q) =>
              ((eliminate { s with rows := rows } row colr).bind fun s => freeSpace s colr).map fun s => (s, q)

/-- `while( (x = L.next()) != -1 )` with the body `one` -/
def listLoop (one : St → ℕ → List ℕ → Option (St × List ℕ)) : ℕ → St → List ℕ → Option St
  | _, s, [] => some s
  | 0, _, _ :: _ => none
  | f + 1, s, x :: q =>
    match one s x q with
    | none => none
    | some (s, q) => listLoop one f s q

/-- `step0` (smat_elim.cc:719-755) -/
def step0 (fuel : ℕ) (s : St) : Option St :=
  listLoop step0One fuel s
    ((List.range s.rows.length).filter fun r => ((s.rows[r]?).getD []).length < 2)

/-! ## step 1 -/

/-- remove the row from its columns (smat_elim.cc:779-787) -/
def remCols (row : ℕ) : Row → List OL → List ℕ → Option (List OL × List ℕ)
  | [], cols, q => some (cols, q)
  | e :: l, cols, q =>
    if e.1 = 0 then none
    else
      match cols[e.1 - 1]? with
      | none => none
      | some ol =>
        match ol.remove row with
        | none => none
        | some ol => remCols row l (cols.set (e.1 - 1) ol) (if ol.num = 1 then q ++ [e.1] else q)

/-- one element of the list of `step1` (smat_elim.cc:773-789) -/
def step1One (X : Marith.XGcd) (t : T) (p : ℤ) (s : St) (col0 : ℕ) (q : List ℕ) : Option (St × List ℕ) :=
  if col0 = 0 then none
  else
    match s.column[col0 - 1]? with
    | none => none
    | some ol =>
      if ol.num < 1 then some (s, q)
      else
        match colNext s col0 with
        | none => none
        | some (row, s) =>
          match (s.rows[row]?).bind (normalize X t p · col0) with
          | none => none
          | some l =>
            match remCols row l s.column q with
            | none => none
            | some (cols, q) =>
              (eliminate { s with rows := s.rows.set row l, column := cols } row col0).map fun s => (s, q)

/-- the number of elements of a column -/
def colNum (s : St) (c : ℕ) : ℕ := ((s.column[c]?).map OL.num).getD 0

/-- `step1` (smat_elim.cc:757-790) -/
def step1 (X : Marith.XGcd) (t : T) (p : ℤ) (fuel : ℕ) (s : St) : Option St :=
  listLoop (step1One X t p) fuel s
    (((List.range s.nco).filter fun c => colNum s c = 1).map (· + 1))

/-! ## clear_col -/

/-- the options of `clear_col`: `fr`, `fc`, `M` -/
structure Flags where
  fr : Bool
  fc : Bool
  M : ℕ

/-- `list_row_in[t].put(row2)` and `list_row_out[t].put(row2)` for the columns with event `ev` -/
def record (ev : Ev) (row2 : ℕ) (lists : List (List ℕ)) (evs : List Ev) : List (List ℕ) :=
  List.zipWith (fun l e => if e = ev then l ++ [row2] else l) lists evs

/-- the state of the first loop of `clear_col` -/
structure CC where
  rows : List Row
  position : List (Option ℕ)
  ins : List (List ℕ)
  outs : List (List ℕ)
  L : List ℕ

/-- `check_row` (smat_elim.cc:1095-1102): `d` is the old number of entries, `k` the new one -/
def checkRow (d k row2 : ℕ) (position : List (Option ℕ)) (L : List ℕ) : List (Option ℕ) × List ℕ :=
  if k < 3 then
    if k = 0 then (position.set row2 (some 0), L)
    else if d > 2 then (position, L ++ [row2])
    else (position, L)
  else (position, L)

/-- the loop of `clear_col` over the rows of the column (smat_elim.cc:1024-1070) -/
def clearRows (t : T) (p : ℤ) (fr : Bool) (row col0 : ℕ) (l1 : Row) : List ℕ → CC → Option CC
  | [], s => some s
  | row2 :: is, s =>
    if row2 = row then clearRows t p fr row col0 l1 is s
    else
      match s.rows[row2]? with
      | none => none
      | some l2 =>
        match rowLook l2 col0 with
        | none => none
        | some (_, v) =>
          let r := merge t p (smod t (p - v) p) l1 l2
          let c := if fr then checkRow l2.length r.1.length row2 s.position s.L else (s.position, s.L)
          clearRows t p fr row col0 l1 is
            ⟨s.rows.set row2 r.1, c.1, record .isIn row2 s.ins r.2, record .isOut row2 s.outs r.2, c.2⟩

/-- `check_col` and the update of `li` for column `c` (smat_elim.cc:1002-1007, 1078-1083, 1103-1107) -/
def afterCol (fl : Flags) (c : ℕ) (num : ℕ) (L : List ℕ) (li : List ℕ) : Option (List ℕ × List ℕ) :=
  let L := if fl.fc ∧ (num = 2 ∨ num = 1) then L ++ [c] else L
  if fl.M = 0 then some (L, li)
  else if c - 1 < li.length then some (L, li.set (c - 1) (if 0 < num ∧ num ≤ fl.M then 1 else 0))
  else none

/-- the loop of `clear_col` when the row is the only one of the column (smat_elim.cc:999-1010) -/
def clearSingle (fl : Flags) (row : ℕ) : Row → List OL → List ℕ → List ℕ → Option (List OL × List ℕ × List ℕ)
  | [], cols, L, li => some (cols, L, li)
  | e :: l, cols, L, li =>
    if e.1 = 0 then none
    else
      match (cols[e.1 - 1]?).bind (OL.remove · row) with
      | none => none
      | some ol =>
        match afterCol fl e.1 ol.num L li with
        | none => none
        | some (L, li) => clearSingle fl row l (cols.set (e.1 - 1) ol) L li

/-- the update of the columns (smat_elim.cc:1073-1084); `ls` is `listsize` -/
def clearCols (fl : Flags) (ls row : ℕ) : Row → List (List ℕ) → List (List ℕ) → List OL → List ℕ → List ℕ →
    Option (List OL × List ℕ × List ℕ)
  | e :: l, i :: ins, o :: outs, cols, L, li =>
    if e.1 = 0 then none
    else
      match (cols[e.1 - 1]?).bind fun ol => (ol.remove row).bind fun ol => (ol.removeList o).bind fun ol => ol.putList ls i with
      | none => none
      | some ol =>
        match afterCol fl e.1 ol.num L li with
        | none => none
        | some (L, li) => clearCols fl ls row l ins outs (cols.set (e.1 - 1) ol) L li
  | _, _, _, cols, L, li => some (cols, L, li)

/-- `clear_col(row,col0,L,fr,fc,M,li)` (smat_elim.cc:991-1088): the state, `L` and `li` -/
def clearCol (t : T) (p : ℤ) (fl : Flags) (s : St) (row col0 : ℕ) (L li : List ℕ) :
    Option (St × List ℕ × List ℕ) :=
  if col0 = 0 then none
  else
    match s.rows[row]?, s.column[col0 - 1]? with
    | some l1, some ol =>
      if ol.num = 1 then
        (clearSingle fl row l1 s.column L li).map fun r => ({ s with column := r.1 }, r.2.1, r.2.2)
      else
        match rdRange ol.arr 0 ol.num with
        | none => none
        | some is =>
          match clearRows t p fl.fr row col0 l1 is
            ⟨s.rows, s.position, List.replicate l1.length [], List.replicate l1.length [], L⟩ with
          | none => none
          | some c =>
            (clearCols fl ol.num row l1 c.ins c.outs (s.column.set (col0 - 1) { ol with index := ol.num }) c.L li).map
              fun r => ({ s with rows := c.rows, position := c.position, column := r.1 }, r.2.1, r.2.2)
    | _, _ => none

/-- `normalize(row,col0); clear_col(row,col0,...); eliminate(row,col0); free_space(col0);` -/
def pivot (X : Marith.XGcd) (t : T) (p : ℤ) (fl : Flags) (s : St) (row col0 : ℕ) (L li : List ℕ) :
    Option (St × List ℕ × List ℕ) :=
  match (s.rows[row]?).bind (normalize X t p · col0) with
  | none => none
  | some l =>
    match clearCol t p fl { s with rows := s.rows.set row l } row col0 L li with
    | none => none
    | some (s, L, li) => ((eliminate s row col0).bind fun s => freeSpace s col0).map fun s => (s, L, li)

/-! ## steps 2, 3, 4 -/

/-- one element of the list of `step2` (smat_elim.cc:801-808) -/
def step2One (X : Marith.XGcd) (t : T) (p : ℤ) (s : St) (row : ℕ) (q : List ℕ) : Option (St × List ℕ) :=
  match s.position[row]? with
  | none => none
  | some (some _) => some (s, q)
  | some none =>
    match s.rows[row]? with
    | some ((colr, _) :: _) => (pivot X t p ⟨true, false, 0⟩ s row colr q []).map fun r => (r.1, r.2.1)
    | _ => none

/-- `step2` (smat_elim.cc:792-809) -/
def step2 (X : Marith.XGcd) (t : T) (p : ℤ) (fuel : ℕ) (s : St) : Option St :=
  listLoop (step2One X t p) fuel s
    ((List.range s.rows.length).filter fun r =>
      ((s.rows[r]?).getD []).length < 3 ∧ (s.position[r]?).getD none = none)

/-- one element of the list of `step3` (smat_elim.cc:824-831) -/
def step3One (X : Marith.XGcd) (t : T) (p : ℤ) (s : St) (col0 : ℕ) (q : List ℕ) : Option (St × List ℕ) :=
  if col0 = 0 then none
  else
    match s.column[col0 - 1]? with
    | none => none
    | some ol =>
      if ol.num < 1 then some (s, q)
      else
        match colNext s col0 with
        | none => none
        | some (row, s) => (pivot X t p ⟨false, true, 0⟩ s row col0 q []).map fun r => (r.1, r.2.1)

/-- `step3` (smat_elim.cc:811-832) -/
def step3 (X : Marith.XGcd) (t : T) (p : ℤ) (fuel : ℕ) (s : St) : Option St :=
  listLoop (step3One X t p) fuel s
    (((List.range s.nco).reverse.filter fun c => colNum s c = 2 ∨ colNum s c = 1).map (· + 1))

/-- `has_weight_one(row,lightness)` (smat_elim.cc:1118-1129) -/
def hasWeightOne (li : List ℕ) : Row → ℕ → Option Bool
  | [], wt => some (wt = 1)
  | e :: l, wt =>
    if e.1 = 0 then none
    else
      match li[e.1 - 1]? with
      | none => none
      | some x => if wt + x > 1 then some false else hasWeightOne li l (wt + x)

/-- the first row with weight one which is not yet eliminated (smat_elim.cc:876-879) -/
def findRow (s : St) (li : List ℕ) : List ℕ → Option (Option ℕ)
  | [] => some none
  | r :: rs =>
    match (s.rows[r]?).bind (hasWeightOne li · 0), s.position[r]? with
    | some b, some pos => if b ∧ pos = none then some (some r) else findRow s li rs
    | _, _ => none

/-- the loop `while(1)` of `step4` (smat_elim.cc:873-899) -/
def step4Inner (X : Marith.XGcd) (t : T) (p : ℤ) (M : ℕ) : ℕ → St → List ℕ → Option (St × List ℕ)
  | 0, _, _ => none
  | f + 1, s, li =>
    match findRow s li (List.range s.rows.length) with
    | none => none
    | some none => some (s, li)
    | some (some row) =>
      match ((s.rows[row]?).getD []).find? fun e => li[e.1 - 1]? = some 1 with
      | none => none
      | some e =>
        match pivot X t p ⟨false, false, M⟩ s row e.1 [] li with
        | none => none
        | some (s, _, li) => step4Inner X t p M f s li

/-- the loop over `M` of `step4` (smat_elim.cc:853-900), `fuel` for the inner loop -/
def step4Loop (X : Marith.XGcd) (t : T) (p : ℤ) (fuel Mstep : ℕ) : ℕ → ℕ → St → Option St
  | 0, _, _ => none
  | f + 1, M, s =>
    if 3 ≤ M then
      let li := (List.range s.nco).map fun c => if 0 < colNum s c ∧ colNum s c ≤ M then 1 else 0
      let nlight := li.sum
      if nlight = 0 ∨ nlight < s.nco / 2 then some s
      else
        match step4Inner X t p M fuel s li with
        | none => none
        | some (s, _) => step4Loop X t p fuel Mstep f (M - Mstep) s
    else some s

/-- the largest column weight -/
def maxColWt (s : St) : ℕ := (List.range s.nco).foldl (fun m c => max m (colNum s c)) 0

/-- `step4` (smat_elim.cc:834-904) -/
def step4 (X : Marith.XGcd) (t : T) (p : ℤ) (fuel : ℕ) (s : St) : Option St :=
  let M0 := maxColWt s
  let Mstep := if M0 / 100 = 0 then 1 else M0 / 100
  step4Loop X t p fuel Mstep (M0 + 1) M0 s

/-! ## the remaining elimination -/

/-- `n_active_cols` (smat_elim.cc:1131-1139), as the list of the columns, from 1 -/
def activeCols (s : St) : List ℕ := ((List.range s.nco).filter fun c => 0 < colNum s c).map (· + 1)

/-- `n_active_rows` (smat_elim.cc:1141-1149), as the list of the rows, from 0 -/
def activeRows (s : St) : List ℕ :=
  (List.range s.rows.length).filter fun r => (s.rows[r]?).getD [] ≠ [] ∧ (s.position[r]?).getD none = none

/-- one step of the search of the first column of least positive weight (smat_elim.cc:928-930) -/
def minStep (s : St) (b : Option (ℕ × ℕ)) (c : ℕ) : Option (ℕ × ℕ) :=
  if 0 < colNum s c then
    match b with
    | none => some (c + 1, colNum s c)
    | some (d, w) => if colNum s c < w then some (c + 1, colNum s c) else some (d, w)
  else b

/-- the first column of least positive weight (smat_elim.cc:925-931), from 1 -/
def minCol (s : St) : Option ℕ := ((List.range s.nco).foldl (minStep s) none).map (·.1)

/-- entry number `e` of a row goes to the dense row (smat_elim.cc:1253-1257) -/
def denseStep (cols : List ℕ) (s : ℕ × List ℤ) (e : ℕ × ℤ) : Option (ℕ × List ℤ) :=
  let j := s.1 + ((cols.drop s.1).takeWhile (· < e.1)).length
  if j < cols.length then some (j, s.2.set j e.2) else none

/-- a row of `dmat` (smat_elim.cc:1251-1258) -/
def denseRow (cols : List ℕ) (l : Row) : Option (List ℤ) :=
  (l.foldlM (denseStep cols) (0, List.replicate cols.length 0)).map (·.2)

/-- a row of the dense matrix as a sparse row (smat_elim.cc:1290-1292); the entries of an svec are
ordered by column, and `set` leaves out zeros -/
def sparseRow (cols : List ℕ) (v : List ℤ) : Row := (cols.zip v).filter fun e => e.2 ≠ 0

/-- replace the rows with the given numbers -/
def setRows : List ℕ → List Row → List Row → List Row
  | r :: rs, l :: ls, rows => setRows rs ls (rows.set r l)
  | _, _, rows => rows

/-- eliminate the dense rows (smat_elim.cc:1303-1313): pairs of rows and pivotal columns -/
def elimDense : List ℕ → List ℕ → St → Option St
  | r :: rs, c :: cs, s => ((eliminate s r c).bind fun s => freeSpace s c).bind fun s => elimDense rs cs s
  | _, [], s => some s
  | [], _ :: _, _ => none

/-- the main part of `step5dense` (smat_elim.cc:1248-1313).  `rref` stands for the library function. -/
def denseMain (rref : Mat.M → Mat.Ech) (s : St) (rr rc : List ℕ) : Option St :=
  match rr.mapM fun r => (s.rows[r]?).bind (denseRow rc) with
  | none => none
  | some d =>
    let e := rref ⟨rc.length, d⟩
    match e.pc.mapM fun j => rc[j]? with
    | none => none
    | some pcs =>
      if rr.length < e.m.rows.length then none
      else
        let new := e.m.rows.map (sparseRow rc) ++ List.replicate (rr.length - e.m.rows.length) []
        elimDense rr pcs { s with rows := setRows rr new s.rows }

/-- `standard` (smat_elim.cc:906-948) and `step5dense` (1217-1315).  The test of the density of the
remaining part (a comparison of floating-point numbers) is the argument `sparse`. -/
def standard (X : Marith.XGcd) (t : T) (p : ℤ) (sparse : St → Bool) (rref : Mat.M → Mat.Ech) : ℕ → St → Option St
  | 0, _ => none
  | f + 1, s =>
    if sparse s then
      match minCol s with
      | none => some s
      | some col0 =>
        match colNext s col0 with
        | none => none
        | some (row, s) =>
          match pivot X t p ⟨false, false, 0⟩ s row col0 [] [] with
          | none => none
          | some (s, _, _) => standard X t p sparse rref f s
    else if (activeRows s).length * (activeCols s).length = 0 then standard X t p sparse rref f s
    else denseMain rref s (activeRows s) (activeCols s)

/-- `sparse_elimination` (smat_elim.cc:314-376) -/
def sparseElimination (X : Marith.XGcd) (t : T) (p : ℤ) (sparse : St → Bool) (rref : Mat.M → Mat.Ech)
    (fuel : ℕ) (s : St) : Option St :=
  (((((step0 fuel s).bind (step1 X t p fuel)).bind (step2 X t p fuel)).bind (step3 X t p fuel)).bind
    (step4 X t p fuel)).bind (standard X t p sparse rref fuel)

/-! ## back substitution and kernel -/

/-- the first entry in the pivotal column of another row (smat_elim.cc:957-961); `some none`: none -/
def backFind (s : St) (row : ℕ) : Row → Option (Option (ℕ × ℤ))
  | [] => some none
  | (c, v) :: l =>
    if c = 0 then none
    else
      match s.elimCol[c - 1]? with
      | none => none
      | some none => backFind s row l
      | some (some e) => if e ≠ row then some (some (e, v)) else backFind s row l

/-- back substitution in one row (smat_elim.cc:955-967) -/
def backRow (t : T) (p : ℤ) (row : ℕ) : ℕ → St → Option St
  | 0, _ => none
  | f + 1, s =>
    match s.rows[row]? with
    | none => none
    | some l =>
      match backFind s row l with
      | none => none
      | some none => some s
      | some (some (e, v)) =>
        match s.rows[e]? with
        | none => none
        | some l1 => backRow t p row f { s with rows := s.rows.set row (merge t p (-v) l1 l).1 }

/-- `back_sub` (smat_elim.cc:950-968) -/
def backSub (t : T) (p : ℤ) (fuel : ℕ) (s : St) : Option St :=
  s.elimRow.reverse.foldlM (fun s row => backRow t p row fuel s) s

/-- `while( *posB < npc[j] && h < d ) { posB++; h++; }` (smat_elim.cc:686) -/
def skip (n : ℕ) : Row → Row
  | e :: e' :: l => if e.1 < n then skip n (e' :: l) else e :: e' :: l
  | l => l

/-- a row of the basis belonging to a pivotal column (smat_elim.cc:680-688), from number `j` on -/
def kerRow : ℕ → List ℕ → Row → Option Row
  | _, [], _ => some []
  | j, n :: npc, l =>
    match skip n l with
    | [] => none
    | e :: l => (kerRow (j + 1) npc (e :: l)).map fun r => if e.1 = n then (j, -e.2) :: r else r

/-- `reduce_mod_p` for a row (smat.cc:461-470, svec.cc) -/
def reduceRow (t : T) (p : ℤ) (l : Row) : Row :=
  l.filterMap fun e => let a := smod t e.2 p; if a ≠ 0 then some (e.1, a) else none

/-- the result of `kernel`: the rows of the basis matrix, pivotal and other columns (from 1) -/
structure Ker where
  bas : List Row
  pc : List ℕ
  npc : List ℕ

/-- the pivotal columns, from 1 -/
def pivCols (s : St) : List ℕ := ((List.range s.nco).filter fun c => ((s.elimCol[c]?).getD none).isSome).map (· + 1)

/-- the other columns, from 1 -/
def nonPivCols (s : St) : List ℕ := ((List.range s.nco).filter fun c => ¬ ((s.elimCol[c]?).getD none).isSome).map (· + 1)

/-- a row of the basis (smat_elim.cc:664-708): `c` is the column, from 1 -/
def basRow (s : St) (c : ℕ) : Option Row :=
  match (s.elimCol[c - 1]?).getD none with
  | none => ((nonPivCols s).idxOf? c).map fun n => [(n + 1, 1)]
  | some r => (s.rows[r]?).bind (kerRow 1 (nonPivCols s))

/-- `old_kernel` (smat_elim.cc:619-717), which is called by `kernel` (378-381) -/
def oldKernel (X : Marith.XGcd) (t : T) (p : ℤ) (sparse : St → Bool) (rref : Mat.M → Mat.Ech) (fuel : ℕ) (s : St) :
    Option Ker :=
  (sparseElimination X t p sparse rref fuel s).bind fun s =>
  (if s.elimRow.length < s.nco then backSub t p fuel s else some s).bind fun s =>
  (((List.range s.nco).map (· + 1)).mapM (basRow s)).map fun rows =>
    ⟨rows.map (reduceRow t p), pivCols s, nonPivCols s⟩

/-- `kernel(sm,m)` (smat_elim.cc:1357-1362): `smat_elim(sm,m).kernel(npivs,pivs)` -/
def kernel (X : Marith.XGcd) (t : T) (p : ℤ) (sparse : St → Bool) (rref : Mat.M → Mat.Ech) (fuel : ℕ) (nco : ℕ)
    (rows : List Row) : Option Ker :=
  (init nco rows).bind (oldKernel X t p sparse rref fuel)

/-- `smat::rank(mod)` (smat_elim.cc:1317-1322) -/
def rank (X : Marith.XGcd) (t : T) (p : ℤ) (sparse : St → Bool) (rref : Mat.M → Mat.Ech) (fuel : ℕ) (nco : ℕ)
    (rows : List Row) : Option ℕ :=
  ((init nco rows).bind (sparseElimination X t p sparse rref fuel)).map fun s => s.elimRow.length

end Eclib.Elim
