import Verif.Svec.Model
import Verif.Mat.Model

/-!
# Model of the sparse matrices of libsrc/smat.cc, libsrc/eclib/smat.h

Each row has two arrays: `col`, whose cell 0 holds the number `d` of entries and whose cells `1..d`
hold the columns, and `val` with the values.  Arrays are lists of cells, `none` being a cell that has
not been written.  Reading a cell that was not written, or writing or reading outside an array, gives
the outcome `none`.  Reading a row with two pointers running along the arrays is modelled by reading
the list of entries first.  Scalars are unbounded integers; the type `T` selects the scalar functions
(`Verif.Svec.Model`).  `delete` is not modelled.
-/

namespace Eclib.Smat

open Svec (T SV smod sxmod sxmodmul sdiv)

/-! ## arrays -/

/-- an array; `none`: not yet written -/
abbrev Buf := List (Option Int)

/-- `new int[n]` -/
def Buf.new (n : Nat) : Buf := List.replicate n none

/-- read cell `i` -/
def Buf.get (b : Buf) (i : Nat) : Option Int := (b[i]?).join

/-- write cell `i` -/
def Buf.put (b : Buf) (i : Nat) (v : Int) : Option Buf :=
  if i < b.length then some (b.set i (some v)) else none

/-- `col[i]`, `val[i]` -/
structure Row where
  col : Buf
  val : Buf
deriving DecidableEq

/-- new arrays for `n` entries -/
def Row.new (n : Nat) : Row := ⟨Buf.new (n + 1), Buf.new n⟩

/-- read `n` entries from number `k` on -/
def Row.readFrom (r : Row) (k : Nat) : Nat → Option (List (Int × Int))
  | 0 => some []
  | n + 1 =>
    match r.col.get (k + 1), r.val.get k, r.readFrom (k + 1) n with
    | some c, some v, some l => some ((c, v) :: l)
    | _, _, _ => none

/-- read the entries of a row -/
def Row.read (r : Row) : Option (List (Int × Int)) :=
  match r.col.get 0 with
  | none => none
  | some d => if d < 0 then none else r.readFrom 0 d.toNat

/-- write entries from number `k` on: `*coli++=c; *vali++=v;` -/
def Row.fill (r : Row) (k : Nat) : List (Int × Int) → Option Row
  | [] => some r
  | (c, v) :: l =>
    match r.col.put (k + 1) c, r.val.put k v with
    | some col, some val => Row.fill ⟨col, val⟩ (k + 1) l
    | _, _ => none

/-- write cell 0 of `col` -/
def Row.setLen (r : Row) (n : Nat) : Option Row := (r.col.put 0 n).map fun col => ⟨col, r.val⟩

/-- a row with fresh arrays of sizes `n+1` and `n`, the given entries and their number in cell 0 -/
def Row.make (n : Nat) (l : List (Int × Int)) : Option Row := (Row.fill (Row.new n) 0 l).bind fun r => r.setLen l.length

/-- class `smat` (smat.h:38-41) -/
structure SM where
  nco : Nat
  rows : List Row
deriving DecidableEq

/-- number of rows -/
def SM.nro (m : SM) : Nat := m.rows.length

/-- the entries of row `i` (counting from 0) -/
def SM.readRow (m : SM) (i : Nat) : Option (List (Int × Int)) := (m.rows[i]?).bind Row.read

/-- a row of the constructor (smat.cc:52-58): one cell is allocated, both cells of `col` are 0 -/
def emptyRow : Row := ⟨[some 0, some 0], [some 0]⟩

/-- `smat(nr,nc)` (smat.cc:42-59) -/
def new (nr nc : Nat) : SM := ⟨nc, List.replicate nr emptyRow⟩

/-- all rows, each computed by `f` from its index and entries -/
def SM.mapRows (m : SM) (f : Nat → Row → List (Int × Int) → Option Row) : Option SM :=
  ((m.rows.zipIdx).mapM fun (e : Row × Nat) => e.1.read.bind (f e.2 e.1)).map fun rows => { m with rows := rows }

/-- copy constructor (smat.cc:61-80) -/
def copy (m : SM) : Option SM := m.mapRows fun _ _ l => Row.make l.length l

/-- the non-zero entries of a list of values for the columns `c`, `c+1`, ... -/
def nonzeros (c : Nat) : List Int → List (Int × Int)
  | [] => []
  | x :: v => if x ≠ 0 then ((c : Int), x) :: nonzeros (c + 1) v else nonzeros (c + 1) v

/-- a row of `operator=` (smat.cc:305-316): new arrays only if the number of entries differs -/
def assignRow (old : Row) (l : List (Int × Int)) : Option Row :=
  match old.col.get 0 with
  | none => none
  | some n =>
    (if n ≠ l.length then (Row.new l.length).setLen l.length else some old).bind fun r =>
      (r.setLen l.length).bind fun r => r.fill 0 l

/-- `operator=` (smat.cc:275-319) for different objects -/
def assign (m sm : SM) : Option SM :=
  let m := if m.nro ≠ sm.nro then new sm.nro sm.nco else { m with nco := sm.nco }
  m.mapRows fun i r _ => (sm.readRow i).bind fun l => assignRow r l

/-- `smat(const mat&)` (smat.cc:82-105): `k` cells for the `k` non-zero entries of a row -/
def ofMat (m : Mat.M) : Option SM :=
  (m.rows.mapM fun v => let l := nonzeros 1 v; Row.make l.length l).map fun rows => ⟨m.nc, rows⟩

/-- replace row `i` -/
def SM.putRow (m : SM) (i : Nat) (r : Row) : SM := { m with rows := m.rows.set i r }

/-- the arrays of row `r` for `d` entries: `if (coli[0]!=d) {... new ...}` (smat.cc:124-128) -/
def realloc (r : Row) (d : Nat) : Option Row :=
  match r.col.get 0 with
  | none => none
  | some n => some (if n ≠ d then Row.new d else r)

/-- `set_row(i,d,pos,values)` (smat.cc:119-141), `i` from 0: space for `d` entries, the non-zero ones
are written -/
def setRow (m : SM) (i : Nat) (l : List (Int × Int)) : Option SM :=
  match m.rows[i]? with
  | none => none
  | some r =>
    match realloc r l.length with
    | none => none
    | some r =>
      let l' := l.filter fun e => e.2 ≠ 0
      match r.fill 0 l' with
      | none => none
      | some r => (r.setLen l'.length).map (m.putRow i)

/-- writing entry number `k` as `setrow(i,vec)` does after allocating new arrays: the column goes to
cell `k+2` -/
def skewStep (r : Row) (e : (Int × Int) × Nat) : Option Row :=
  match r.col.put (e.2 + 2) e.1.1, r.val.put e.2 e.1.2 with
  | some col, some val => some ⟨col, val⟩
  | _, _ => none

/-- `setrow(i,vec)` (smat.cc:143-180), `i` from 1.  When the arrays are allocated anew, `*coli++=n` and
the following `coli++` leave `coli` at cell 2: the columns are written from there on. -/
def setrowVec (m : SM) (i : Nat) (v : List Int) : Option SM :=
  match m.rows[i - 1]? with
  | none => none
  | some r =>
    if i = 0 then none else
    let l := nonzeros 1 v
    match r.col.get 0 with
    | none => none
    | some n =>
      if n ≠ l.length then
        match (Row.new l.length).setLen l.length with
        | none => none
        | some r =>
          (l.zipIdx.foldlM skewStep r).map (m.putRow (i - 1))
      else (r.fill 0 l).map (m.putRow (i - 1))

/-- `setrow(i,svec)` (smat.cc:182-210), `i` from 1 -/
def setrow (m : SM) (i : Nat) (v : SV) : Option SM :=
  match m.rows[i - 1]? with
  | none => none
  | some r =>
    if i = 0 then none else
    match r.col.get 0 with
    | none => none
    | some n =>
      if n ≠ v.entries.length then
        match (Row.new v.entries.length).setLen v.entries.length with
        | none => none
        | some r => (r.fill 0 v.entries).map (m.putRow (i - 1))
      else (r.fill 0 v.entries).map (m.putRow (i - 1))

/-- `select_rows(rows)` (smat.cc:212-222); `rows` counts from 1 -/
def selectRows (m : SM) (rows : List Nat) : Option SM :=
  (rows.zipIdx).foldlM (fun (ans : SM) (e : Nat × Nat) =>
    if e.1 = 0 then none
    else (m.readRow (e.1 - 1)).bind fun l => setRow ans e.2 l) (new rows.length m.nco)

/-- a row of `as_mat` (smat.cc:229-236): the entries are stored one after the other in a row of
zeros; a column outside `1..nco` is an access outside the row (`none`) -/
def denseRow (nco : Nat) (l : List (Int × Int)) : Option (List Int) :=
  l.foldlM (fun (w : List Int) e =>
    if 1 ≤ e.1 ∧ e.1 ≤ (nco : Int) then some (w.set (e.1 - 1).toNat e.2) else none) (List.replicate nco 0)

/-- `as_mat` (smat.cc:224-238) -/
def asMat (m : SM) : Option Mat.M :=
  (m.rows.mapM fun (r : Row) => r.read.bind (denseRow m.nco)).map fun rows => ⟨m.nco, rows⟩

/-- `row(i)` (smat.cc:240-250), `i` from 1 -/
def row (m : SM) (i : Nat) : Option SV :=
  if i = 0 then none
  else (m.readRow (i - 1)).map fun l => l.foldl (fun v e => Svec.set v e.1 e.2) (Svec.zero m.nco)

/-- `elem(i,j)` (smat.cc:252-272): `lower_bound` (C++ library) gives the first entry with column at
least `j`; 0 for indices out of range -/
def elem (m : SM) (i j : Int) : Option Int :=
  if 0 < i ∧ i ≤ (m.nro : Int) ∧ 0 < j ∧ j ≤ (m.nco : Int) then
    (m.readRow (i - 1).toNat).map fun l =>
      match l.find? fun e => j ≤ e.1 with
      | none => 0
      | some e => if e.1 ≠ j then 0 else e.2
  else some 0

/-- the merging loop of `operator+=` and `operator-=` (smat.cc:335-364, 388-405): `f` is the identity
or the negation.  For equal columns the code also stores the column when the sum is 0, in the cell
that the next entry overwrites; this is left out. -/
def mergeRows (f : Int → Int) : List (Int × Int) → List (Int × Int) → List (Int × Int)
  | [], l2 => l2.map fun e => (e.1, f e.2)
  | l1, [] => l1
  | (i, x) :: l1, (j, y) :: l2 =>
    if i < j then (i, x) :: mergeRows f l1 ((j, y) :: l2)
    else if j < i then (j, f y) :: mergeRows f ((i, x) :: l1) l2
    else if x + f y ≠ 0 then (i, x + f y) :: mergeRows f l1 l2
    else mergeRows f l1 l2
termination_by l1 l2 => l1.length + l2.length

/-- `operator+=(smat)` (smat.cc:321-375) and `operator-=(smat)` (377-413): new arrays for `d+d2`
entries; the argument is unchanged if the numbers of rows differ -/
def combine (f : Int → Int) (m m2 : SM) : Option SM :=
  if m.nro = m2.nro then
    m.mapRows fun i _ l => (m2.readRow i).bind fun l2 => Row.make (l.length + l2.length) (mergeRows f l l2)
  else some m

/-- `operator+=(smat)` -/
def iadd : SM → SM → Option SM := combine id

/-- `operator-=(smat)` -/
def isub : SM → SM → Option SM := combine (- ·)

/-- a row of `operator+=(scalar)` (smat.cc:428-446); `i` is the column of the diagonal -/
def addDiag (s i : Int) : List (Int × Int) → List (Int × Int)
  | [] => [(i, s)]
  | (j, x) :: l =>
    if j < i then (j, x) :: addDiag s i l
    else if j = i then (if x + s ≠ 0 then (j, x + s) :: l else l)
    else (i, s) :: (j, x) :: l

/-- `operator+=(scalar)` (smat.cc:415-452) -/
def addScalar (m : SM) (s : Int) : Option SM :=
  if s = 0 then some m
  else m.mapRows fun i _ l => Row.make (l.length + 1) (addDiag s (i + 1) l)

/-- `operator-=(scalar)` (smat.h:60-61) -/
def subScalar (m : SM) (s : Int) : Option SM := addScalar m (-s)

/-- apply `f` to the values in place (smat.cc:475-480, 487-492, 499-504) -/
def mapVals (m : SM) (f : Int → Int) : Option SM :=
  m.mapRows fun _ r l => r.fill 0 (l.map fun e => (e.1, f e.2))

/-- `operator*=(scalar)` (smat.cc:472-482); the message for 0 is not modelled -/
def imul (m : SM) (s : Int) : Option SM := mapVals m (· * s)

/-- `mult_by_scalar_mod_p` (smat.cc:484-494) -/
def mulModP (t : T) (m : SM) (s p : Int) : Option SM := mapVals m fun x => sxmodmul t x s p

/-- `operator/=(scalar)` (smat.cc:496-506); `none`: division by zero -/
def idiv (t : T) (m : SM) (s : Int) : Option SM :=
  if s = 0 ∧ m.rows.any (fun r => r.read ≠ some []) then none else mapVals m fun x => sdiv t x s

/-- `reduce_mod_p` (smat.cc:461-470) -/
def reduceModP (t : T) (m : SM) (p : Int) : Option SM :=
  (List.range m.nro).foldlM (fun (a : SM) i =>
    (row a (i + 1)).bind fun v => setrow a (i + 1) (Svec.reduceModP t v p)) m

/-- `sub_mod_p` (smat.cc:454-459) -/
def subModP (t : T) (m : SM) (lambda p : Int) : Option SM :=
  (subScalar m lambda).bind fun a => reduceModP t a p

/-- one entry of `smat*mat` (smat.cc:522-524): `m(col,j)` with columns from 1; an index out of range
is `none` -/
def dotCol (l : List (Int × Int)) (b : Mat.M) (j : Nat) : Option Int :=
  l.foldlM (fun (ans : Int) e =>
    if 1 ≤ e.1 ∧ e.1 ≤ (b.nr : Int) then some (ans + e.2 * b.get (e.1 - 1).toNat j) else none) 0

/-- `smat*mat` (smat.cc:508-528); the empty matrix if the sizes differ -/
def mulMat (m : SM) (b : Mat.M) : Option Mat.M :=
  if m.nco ≠ b.nr then some ⟨0, []⟩
  else (m.rows.mapM fun (r : Row) => r.read.bind fun l => (List.range b.nc).mapM (dotCol l b)).map
    fun rows => ⟨b.nc, rows⟩

/-- `smat*svec` (smat.cc:537-553); the empty svec if the sizes differ -/
def mulSvec (m : SM) (v : SV) : Option SV :=
  if m.nco ≠ v.d then some (Svec.zero 0)
  else (List.range m.nro).foldlM (fun (prod : SV) j =>
    (row m (j + 1)).map fun w =>
      let s := Svec.dot w v
      if s ≠ 0 then { prod with entries := Svec.put prod.entries (j + 1) s } else prod) (Svec.zero m.nro)

/-- `smat*vec` (smat.cc:555-564); the zero vector if the sizes differ -/
def mulVec (m : SM) (v : List Int) : Option (List Int) :=
  if m.nco ≠ v.length then some (List.replicate m.nro 0)
  else (List.range m.nro).mapM fun i => (row m (i + 1)).bind fun w => Svec.dotVec w v

/-- `svec*smat` (smat.cc:568-582); the zero svec if the sizes differ -/
def svecMul (v : SV) (m : SM) : Option SV :=
  if v.d ≠ m.nro then some (Svec.zero m.nco)
  else v.entries.foldlM (fun (prod : SV) e =>
    (row m e.1.toNat).map fun w => Svec.iadd prod (Svec.imul w e.2)) (Svec.zero m.nco)

/-- `vec::add_modp(i,x,p)` (vec.cc:134-137) -/
def addModpVec (t : T) (w : List Int) (i x p : Int) : Option (List Int) :=
  if 1 ≤ i ∧ i ≤ (w.length : Int) then some (w.set (i - 1).toNat (smod t (w.getD (i - 1).toNat 0 + x) p))
  else none

/-- `mult_mod_p(svec,smat,p)` (smat.cc:584-607) -/
def svecMulModP (t : T) (v : SV) (m : SM) (p : Int) : Option SV :=
  if v.d ≠ m.nro then some (Svec.zero m.nco)
  else (v.entries.foldlM (fun (prod : List Int) e =>
    if e.1 < 1 then none
    else (m.readRow (e.1 - 1).toNat).bind fun l =>
      l.foldlM (fun (prod : List Int) f => addModpVec t prod f.1 (sxmodmul t e.2 f.2 p) p) prod)
    (List.replicate m.nco 0)).map Svec.ofVec

/-- `mult_mod_p(smat,svec,p)` (smat.cc:610-624) -/
def mulSvecModP (t : T) (m : SM) (v : SV) (p : Int) : Option SV :=
  if v.d ≠ m.nco then some (Svec.zero m.nro)
  else (List.range m.nro).foldlM (fun (w : SV) i =>
    (row m (i + 1)).map fun r => Svec.set w (i + 1) (Svec.dotModP t r v p)) (Svec.zero m.nro)

/-- `mult_mod_p(smat,vec,p)` (smat.cc:626-640) -/
def mulVecModP (t : T) (m : SM) (v : List Int) (p : Int) : Option (List Int) :=
  if v.length ≠ m.nco then some (List.replicate m.nro 0)
  else (List.range m.nro).mapM fun i => (row m (i + 1)).bind fun w => Svec.dotVecModP t w v p

/-- `smat*smat` (smat.cc:642-656); the zero matrix if the sizes differ -/
def mul (a b : SM) : Option SM :=
  if a.nco ≠ b.nro then some (new a.nro b.nco)
  else (List.range a.nro).foldlM (fun (prod : SM) i =>
    (row a (i + 1)).bind fun v => (svecMul v b).bind fun w => setrow prod (i + 1) w) (new a.nro b.nco)

/-- `mult_mod_p(smat,smat,p)` (smat.cc:658-672) -/
def mulMod (t : T) (a b : SM) (p : Int) : Option SM :=
  if a.nco ≠ b.nro then some (new a.nro b.nco)
  else (List.range a.nro).foldlM (fun (prod : SM) i =>
    (row a (i + 1)).bind fun v => (svecMulModP t v b p).bind fun w => setrow prod (i + 1) w) (new a.nro b.nco)

/-- `colwts` of `transpose` (smat.cc:679-684) for one row; `none`: column out of range -/
def countCols (w : List Nat) (l : List (Int × Int)) : Option (List Nat) :=
  l.foldlM (fun (w : List Nat) e =>
    if 1 ≤ e.1 ∧ e.1 ≤ (w.length : Int) then some (w.modify (e.1 - 1).toNat (· + 1)) else none) w

/-- one entry of the third step of `transpose` (smat.cc:714-717): rows of the transpose and `aux` -/
def transStep (r : Nat) (s : List Row × List Nat) (e : Int × Int) : Option (List Row × List Nat) :=
  if e.1 < 1 then none
  else
    let c := (e.1 - 1).toNat
    match s.1[c]?, s.2[c]? with
    | some row, some a =>
      match row.col.put (a + 1) (r + 1 : Nat), row.val.put a e.2 with
      | some col, some val => some (s.1.set c ⟨col, val⟩, s.2.set c (a + 1))
      | _, _ => none
    | _, _ => none

/-- `transpose` (smat.cc:674-727) -/
def transpose (a : SM) : Option SM :=
  (a.rows.foldlM (fun w (r : Row) => r.read.bind (countCols w)) (List.replicate a.nco 0)).bind fun wts =>
  (wts.mapM fun d => (Row.new d).setLen d).bind fun rows =>
  ((a.rows.zipIdx).foldlM (fun s (e : Row × Nat) => e.1.read.bind fun l => l.foldlM (transStep e.2) s)
    (rows, List.replicate a.nco 0)).map fun s => ⟨a.nro, s.1⟩

/-- `operator==` (smat.cc:729-747); the numbers of columns are not compared -/
def eq (a b : SM) : Option Bool :=
  if a.nro ≠ b.nro then some false
  else (a.rows.zip b.rows).foldlM (fun (equal : Bool) e =>
    if equal then
      match e.1.read, e.2.read with
      | some l1, some l2 => some (decide (l1 = l2))
      | _, _ => none
    else some false) true

/-- `eqmodp` (smat.cc:749-767) -/
def eqmodp (t : T) (a b : SM) (p : Int) : Option Bool :=
  if a.nro ≠ b.nro then some false
  else (a.rows.zip b.rows).foldlM (fun (equal : Bool) e =>
    if equal then
      match e.1.read, e.2.read with
      | some l1, some l2 =>
        some (l1.map Prod.fst = l2.map Prod.fst &&
          (l1.zip l2).all fun e => sxmod t (e.1.2 - e.2.2) p == 0)
      | _, _ => none
    else some false) true

/-- a row of `scalar_matrix` (smat.cc:894-896) -/
def diagRow (a : Int) (e : Row × Nat) : Option Row :=
  match e.1.col.put 0 1 with
  | none => none
  | some col =>
    match col.put 1 (e.2 + 1 : Nat), e.1.val.put 0 a with
    | some col, some val => some ⟨col, val⟩
    | _, _ => none

/-- `scalar_matrix(n,a)` (smat.cc:889-899) -/
def scalarMatrix (n : Nat) (a : Int) : Option SM :=
  ((new n n).rows.zipIdx.mapM (diagRow a)).map fun rows => ⟨n, rows⟩

/-- `get_population` (smat.cc:863-874): it counts the non-zero column numbers -/
def population (m : SM) : Option Nat :=
  m.rows.foldlM (fun n (r : Row) => r.read.map fun l => n + (l.filter fun e => e.1 ≠ 0).length) 0

/-- `maxabs` (smat.cc:876-887) -/
def maxabs (m : SM) : Option Int :=
  m.rows.foldlM (fun a (r : Row) => r.read.map fun l => l.foldl (fun a e => max a |e.2|) a) 0

end Eclib.Smat
