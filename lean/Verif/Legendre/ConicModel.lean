import Verif.Legendre.SolveModel

/-!
# Model of conic.cc: testlocsol, solve_conic, solve_conic_param

Default preprocessor symbols; `verb = 0`.
-/

namespace Eclib.Legendre

open Marith (XGcd SqrRootMod isqrt legendre sqfdecomp)
open Forms (Q)

/-- The function `test` in `testlocsol` (conic.cc:526-534) -/
def locTest (plist : List ℤ) (m : ℤ) : Bool :=
  !plist.any fun p => decide (p > 2) && decide (legendre m p ≠ some 1)

/-- `testlocsol(a,alist,b,blist,c,clist)` (conic.cc:517-536) -/
def testlocsol3 (a : ℤ) (alist : List ℤ) (b : ℤ) (blist : List ℤ) (c : ℤ) (clist : List ℤ) : Bool :=
  if a.sign = b.sign ∧ b.sign = c.sign then false
  else locTest clist (-a * b) && locTest alist (-b * c) && locTest blist (-a * c)

/-- The first loop of `testlocsol(a,alist,b,blist)` (conic.cc:556-566); state `(a0, c, a0list, clist)` -/
def locLoop1 (b : ℤ) : List ℤ → ℤ → ℤ → List ℤ → List ℤ → ℤ × ℤ × List ℤ × List ℤ
  | [], a0, c, al, cl => (a0, c, al, cl)
  | p :: ps, a0, c, al, cl =>
    if Marith.div p b then locLoop1 b ps a0 (c * p) al (cl ++ [p]) else locLoop1 b ps (a0 * p) c (al ++ [p]) cl

/-- The second loop (conic.cc:567-573); state `(b0, b0list)` -/
def locLoop2 (c : ℤ) : List ℤ → ℤ → List ℤ → ℤ × List ℤ
  | [], b0, bl => (b0, bl)
  | p :: ps, b0, bl => if Marith.div p c then locLoop2 c ps b0 bl else locLoop2 c ps (b0 * p) (bl ++ [p])

/-- `testlocsol(a,alist,b,blist)` (conic.cc:538-576) -/
def testlocsol2 (a : ℤ) (alist : List ℤ) (b : ℤ) (blist : List ℤ) : Bool :=
  if a < 0 ∧ b < 0 then false
  else
    let r := locLoop1 b alist (if a < 0 then -1 else 1) (-1) [] []
    let s := locLoop2 r.2.1 blist (if b < 0 then -1 else 1) []
    testlocsol3 r.1 r.2.2.1 s.1 s.2 r.2.1 r.2.2.2

/-- `solve_conic(a,b,c,d,factorbase,x,y,z,4)` (conic.cc:68-93) -/
def solveConic (X : XGcd) (S : SqrRootMod) (a b c d : ℤ) (fb : List ℤ) : Res :=
  if b = 0 then legendreSolve X S a (-d) c fb
  else
    let aa := b ^ 2 - 4 * a * c
    let bb := a * d
    match legendreSolve X S 1 (-aa) (-bb) fb with
    | .sol x z y =>
      let r := cancel (x - b * z) (y * a) (z * (2 * a))
      .sol r.1 r.2.1 r.2.2
    | .insol => .insol
    | .problem => .problem

/-- `solve_conic(a,b,c,d,factorbase,x,y,z,method)` for the methods 0 to 3 (conic.cc:94-128).  The functions
`solve_conic_diag` and `conic_diag_reduce` are a parameter: `diag a1 aplist b1 bplist`.  The statement `zz<<=1` has no
effect on the result. -/
def solveConicOld (diag : ℤ → List ℤ → ℤ → List ℤ → Option (ℤ × ℤ × ℤ)) (a b c d : ℤ) (fb : List ℤ) : Res :=
  let bb := a * d
  let aa := -a * c
  let aa := if b ≠ 0 then b ^ 2 - 4 * aa else aa
  let ra := sqfdecomp aa fb
  let rb := sqfdecomp bb fb
  if !testlocsol2 ra.1 ra.2.2 rb.1 rb.2.2 then .insol
  else
    match diag ra.1 ra.2.2 rb.1 rb.2.2 with
    | none => .problem
    | some s =>
      let x := s.1 * (ra.2.1 * rb.2.1)
      let y := s.2.1 * ra.2.1
      let z := s.2.2 * rb.2.1
      let x := if b ≠ 0 then x - b * z else x
      let r := cancel x (y * a) (z * a)
      .sol r.1 r.2.1 r.2.2

/-- Result of `solve_conic_param`: return value 0; return value 1 with the three quadratics; "Problem" -/
inductive PRes where
  | insol
  | sol (qx qy qz : Q)
  | problem
deriving DecidableEq, Repr

/-- `divide_exact` (marith.cc:869-881) -/
def divExact (a b : ℤ) : Option ℤ := if a.fmod b = 0 then some (a.fdiv b) else none

/-- division of the three coefficients -/
def divQ (q : Q) (f0 f1 f2 : ℤ) : Option Q :=
  match divExact q.a f0, divExact q.b f1, divExact q.c f2 with
  | some s, some t, some u => some ⟨s, t, u⟩
  | _, _, _ => none

/-- The case of a square discriminant (conic.cc:678-733) -/
def paramSquare (a b d delta : ℤ) : PRes :=
  let x0 := (delta - b).fdiv 2
  let qx : Q := ⟨a * d * x0, 0, (delta + b).fdiv 2⟩
  let qy : Q := ⟨0, a * delta, 0⟩
  let qz : Q := ⟨a ^ 2 * d, 0, -a⟩
  let a1 := gcd a qx.c
  let a2 := (a * a).fdiv a1
  match divQ qx a2 a a1, divQ qy a2 a a1, divQ qz a2 a a1 with
  | some rx, some ry, some rz => .sol rx ry rz
  | _, _, _ => .problem

/-- `q.set_coeff(2,…); q.set_coeff(1,…)` and the exact divisions (conic.cc:771-791) -/
def paramShiftC (e fac : ℤ) (q : Q) : Option Q :=
  divQ ⟨q.a, q.b + 2 * e * q.a, q.c + e * (q.b + e * q.a)⟩ 1 fac (fac ^ 2)

/-- The generic case, after a solution has been found (conic.cc:748-794) -/
def paramGeneric (X : XGcd) (a b c x0 y0 z0 : ℤ) : PRes :=
  let disc := b * b - 4 * a * c
  let qx : Q := ⟨x0, 2 * (b * x0 + 2 * c * z0), x0 * disc⟩
  let qy : Q := ⟨y0, 0, -y0 * disc⟩
  let qz : Q := ⟨z0, -2 * (2 * a * x0 + b * z0), z0 * disc⟩
  let r := X.run x0 z0
  let s := r.2.1
  let t := r.2.2
  let fac := 2 * y0
  let e := (x0 * (2 * t * a - s * b) + z0 * (t * b - 2 * c * s)).fmod (2 * y0 ^ 2)
  match paramShiftC e fac qx, paramShiftC e fac qy, paramShiftC e fac qz with
  | some rx, some ry, some rz => .sol rx ry rz
  | _, _, _ => .problem

/-- `solve_conic_param(a,b,c,d,factorbase,qx,qy,qz,4,0)` (conic.cc:661-795) -/
def solveConicParam (X : XGcd) (S : SqrRootMod) (a b c d : ℤ) (fb : List ℤ) : PRes :=
  let disc := b * b - 4 * a * c
  if (isqrt disc).1 then paramSquare a b d (isqrt disc).2
  else
    match solveConic X S a b c d fb with
    | .insol => .insol
    | .problem => .problem
    | .sol x0 y0 z0 => paramGeneric X a b c x0 y0 z0

end Eclib.Legendre
