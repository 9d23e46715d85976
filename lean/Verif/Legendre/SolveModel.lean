import Verif.Legendre.ReduceModel

/-!
# Model of legendre_solve (legendre.cc:261-410) and make_certificate (707-716)

Only `use_lll = 0`; default preprocessor symbols.
-/

namespace Eclib.Legendre

open Marith (XGcd SqrRootMod sqrtModM sqfdecomp)

/-- The variables `a1,b1,c1,xfac,yfac,zfac` -/
structure G where
  a : ℤ
  b : ℤ
  c : ℤ
  x : ℤ
  y : ℤ
  z : ℤ
deriving DecidableEq, Repr

/-- `if((g=gcd(b1,c1))>1) {b1/=g; c1/=g; a1*=g; xfac*=g; ntry=3;}` (legendre.cc:291) -/
def check0 (s : G) (ntry : ℕ) : G × ℕ :=
  let g := gcd s.b s.c
  if g > 1 then (⟨s.a * g, s.b.fdiv g, s.c.fdiv g, s.x * g, s.y, s.z⟩, 3) else (s, ntry)

/-- `if((g=gcd(c1,a1))>1) {c1/=g; a1/=g; b1*=g; yfac*=g; ntry=3;}` (legendre.cc:295) -/
def check1 (s : G) (ntry : ℕ) : G × ℕ :=
  let g := gcd s.c s.a
  if g > 1 then (⟨s.a.fdiv g, s.b * g, s.c.fdiv g, s.x, s.y * g, s.z⟩, 3) else (s, ntry)

/-- `if((g=gcd(a1,b1))>1) {a1/=g; b1/=g; c1*=g; zfac*=g; ntry=3;}` (legendre.cc:300) -/
def check2 (s : G) (ntry : ℕ) : G × ℕ :=
  let g := gcd s.a s.b
  if g > 1 then (⟨s.a.fdiv g, s.b.fdiv g, s.c * g, s.x, s.y, s.z * g⟩, 3) else (s, ntry)

/-- The body of the loop (legendre.cc:290-301); `ntry > 0` -/
def gcdBody (s : G) (ntry : ℕ) : G × ℕ :=
  let r := check0 s (ntry - 1)
  let r := if r.2 > 0 then check1 r.1 (r.2 - 1) else r
  if r.2 > 0 then check2 r.1 (r.2 - 1) else r

/-- `while(ntry>0)` (legendre.cc:289-302) -/
def gcdLoop : ℕ → G → ℕ → Option G
  | 0, _, _ => none
  | k + 1, s, ntry =>
    if ntry > 0 then
      let r := gcdBody s ntry
      gcdLoop k r.1 r.2
    else some s

/-- `make_certificate(a,apdivs,b,bpdivs,c,cpdivs,n,p,q)` (legendre.cc:707-716); `none` if there is none -/
def makeCert (X : XGcd) (S : SqrRootMod) (a : ℤ) (la : List ℤ) (b : ℤ) (lb : List ℤ) (c : ℤ) (lc : List ℤ) :
    Option (ℤ × ℤ × ℤ) :=
  match sqrtModM X S (-b * c) |a| la with
  | none => none
  | some n =>
    match sqrtModM X S (-a * c) |b| lb with
    | none => none
    | some p => (sqrtModM X S (-a * b) |c| lc).map fun q => (n, p, q)

/-- Result: return value 0; return value 1 with the solution; a message "Problem" was written (or a division by 0) -/
inductive Res where
  | insol
  | sol (x y z : ℤ)
  | problem
deriving DecidableEq, Repr

/-- Steps 5 to 7 (legendre.cc:349-398): solution for the square-free coefficients, reduction, scaling -/
def solveScaled (X : XGcd) (a2 b2 c2 n p q xf yf zf : ℤ) : Res :=
  match solveCert X (|b2 * c2|.toNat + 1) a2 b2 c2 n p q with
  | some (.sol x y z) =>
    let t := cancel1 x y z
    match newReduce X a2 b2 c2 t.1 t.2.1 t.2.2 with
    | none => .problem
    | some r =>
      let u := cancel1 |r.1 * xf| |r.2.1 * yf| |r.2.2 * zf|
      .sol u.1 u.2.1 u.2.2
  | _ => .problem

/-- `legendre_solve(a,b,c,factorbase,x,y,z,0)` (legendre.cc:268-410) -/
def legendreSolve (X : XGcd) (S : SqrRootMod) (a b c : ℤ) (fb : List ℤ) : Res :=
  if a = 0 ∨ b = 0 ∨ c = 0 then .insol
  else if (0 < a ∧ 0 < b ∧ 0 < c) ∨ (a < 0 ∧ b < 0 ∧ c < 0) then .insol
  else
    match gcdLoop (4 * (a * b * c).natAbs + 4) ⟨a, b, c, 1, 1, 1⟩ 3 with
    | none => .problem
    | some s =>
      let ra := sqfdecomp s.a fb
      let rb := sqfdecomp s.b fb
      let rc := sqfdecomp s.c fb
      let f := cancel1 (s.x * rb.2.1 * rc.2.1) (s.y * ra.2.1 * rc.2.1) (s.z * ra.2.1 * rb.2.1)
      match makeCert X S ra.1 ra.2.2 rb.1 rb.2.2 rc.1 rc.2.2 with
      | none => .insol
      | some m => solveScaled X ra.1 rb.1 rc.1 m.1 m.2.1 m.2.2 f.1 f.2.1 f.2.2

end Eclib.Legendre
