import Mathlib.Algebra.Group.Basic
import Mathlib.Algebra.Module.Basic
import Mathlib.Data.Nat.Prime.Basic
import Verif.Mat.Model

/-!
# Model of libsrc/saturate.cc: the class saturator

The points are elements of an abelian group `G`.  What the class gets from other parts is in `Env`: the maps to `(Z/p)^ntp` of the
auxiliary primes `q` (tlss.cc), the test for torsion, the division of points by `p`, the p-cotorsion, the index bound.
Loops have fuel; an access outside a vector is the error `ub`.
-/

namespace Eclib.Sat

open Mat (M)

/-- the two ways in which a run has no result -/
inductive Err | ub | fuel
deriving DecidableEq, Repr

/-- what saturate.cc uses from elsewhere -/
structure Env (G : Type) where
  /-- for the prime `p` and `k`, the `k`-th prime `q` not dividing the discriminant, not `p`, for which the p-rank `ntp` mod `q` is
  positive (saturate.cc:113-185): `ntp` and `map1point` -/
  maps : ℕ → ℕ → ℕ × (G → List ℤ)
  /-- `is_torsion` -/
  isTors : G → Bool
  /-- `division_points(p)` -/
  divPts : ℕ → G → List G
  /-- `pCoTorsion(AllTorsion,p)` -/
  cotors : ℕ → List G
  /-- `trivially_saturated(p)` (saturate.cc:63-68), with the index bound of the current points (the code recomputes it whenever the
  points change) -/
  triv : List G → ℕ → Bool
  X : Marith.XGcd

/-- the members of the class which change; `k` counts the primes `q` used -/
structure St (G : Type) where
  Plist : List G
  Plistx : List G
  TLimage : M
  TLrank : ℕ
  k : ℕ
  stuck : ℕ
  logIndex : ℕ

variable {G : Type} [AddCommGroup G]

/-- `rank` -/
def St.rank (S : St G) : ℕ := S.Plistx.length

/-- `map_points` (tlss.cc:229-245): row `j` has the components `j` of the images of the points -/
def mapPoints (ntp : ℕ) (f : G → List ℤ) (L : List G) : M := M.ofFn ntp L.length fun j i => (f (L.getD i 0)).getD j 0

/-- `rowcat` (mat.cc:372-386) -/
def rowcat (a b : M) : M := ⟨a.nc, a.rows ++ b.rows⟩

/-- `nextq` (saturate.cc:111-225) once `q` is found -/
def nextq (e : Env G) (p : ℕ) (S : St G) : St G :=
  let TLim := mapPoints (e.maps p S.k).1 (e.maps p S.k).2 S.Plistx
  let new := Mat.echmodp e.X .long p (rowcat S.TLimage TLim)
  if new.pc.length = S.TLrank then { S with k := S.k + 1, stuck := S.stuck + 1 }
  else { S with k := S.k + 1, stuck := 0, TLimage := new.m, TLrank := new.pc.length }

/-- `while((TLrank<rank)&&(stuck_counter<ms)) nextq();` (saturate.cc:100, 107) -/
def sieveLoop (e : Env G) (p ms : ℕ) : ℕ → St G → Except Err (St G)
  | 0, S => if S.TLrank < S.rank ∧ S.stuck < ms then .error .fuel else .ok S
  | f + 1, S => if S.TLrank < S.rank ∧ S.stuck < ms then sieveLoop e p ms f (nextq e p S) else .ok S

/-- `test_saturation` (saturate.cc:70-102) -/
def testSat (e : Env G) (fuel p ms : ℕ) (S : St G) : Except Err (Bool × St G) :=
  if e.triv S.Plist p then .ok (true, S)
  else do
    let Plistx := S.Plist ++ e.cotors p
    let S := { S with Plistx := Plistx, TLimage := ⟨Plistx.length, []⟩, TLrank := 0, k := 0, stuck := 0, logIndex := 0 }
    let S ← sieveLoop e p ms fuel S
    pure (decide (S.rank = S.TLrank), S)

/-- `test_saturation_extra` (saturate.cc:104-109) -/
def testExtra (e : Env G) (fuel p ms : ℕ) (S : St G) : Except Err (Bool × St G) := do
  let S ← sieveLoop e p ms fuel { S with stuck := 0 }
  pure (decide (S.rank = S.TLrank), S)

/-- the numbers `ci` of `enlarge` (saturate.cc:239, 244): the first column of the basis of the kernel, reduced modulo `p`; the kernel has
a first column as the matrix has rank `TLrank < rank` -/
def coef (e : Env G) (p : ℕ) (S : St G) (i : ℕ) : ℤ := Svec.smod .long ((Mat.pkernel e.X .long p S.TLimage).basis.get i 0) p

/-- `Q` of `enlarge` (saturate.cc:242-251); terms with `ci = 0` are skipped in the code -/
def combQ (e : Env G) (p : ℕ) (S : St G) : G :=
  (List.range S.rank).foldl (fun Q i => if coef e p S i = 0 then Q else Q + coef e p S i • S.Plistx.getD i 0) 0

/-- `keepi` (saturate.cc:247-248) -/
def keepi (e : Env G) (p : ℕ) (S : St G) : Option ℕ := (List.range S.rank).find? fun i => |coef e p S i| = 1

/-- `enlarge` (saturate.cc:236-307).  `Plist[keepi]=newQ` (saturate.cc:282) is undefined when `keepi` is -1 or not less than
the size of `Plist` -/
def enlarge (e : Env G) (p : ℕ) (S : St G) : Except Err (Bool × St G) :=
  if S.TLrank = S.rank then .ok (false, S)
  else
    let Q := combQ e p S
    if e.isTors Q then .ok (false, S)
    else match e.divPts p Q with
      | [] => .ok (false, S)
      | newQ :: _ =>
        match keepi e p S with
        | none => .error .ub
        | some i =>
          if i < S.Plist.length then
            .ok (true, { S with
              Plist := S.Plist.set i newQ
              Plistx := S.Plistx.set i newQ
              logIndex := S.logIndex + 1
              TLimage := ⟨S.rank, []⟩
              TLrank := 0
              k := 0
              stuck := 0 })
          else .error .ub

/-- the loop `while(1)` of `do_saturation(p)` (saturate.cc:323-341) with the counter `n`; `none` is the value -1 -/
def doLoop (e : Env G) (p maxn : ℕ) : ℕ → ℕ → St G → Except Err (Option ℕ × St G)
  | 0, _, _ => .error .fuel
  | f + 1, n, S =>
    match enlarge e p S with
    | .error x => .error x
    | .ok (ok, S) =>
      let n := if ok then 0 else n + 1
      if ok = false ∧ n = maxn then .ok (none, S)
      else match testExtra e f p maxn S with
        | .error x => .error x
        | .ok (sat, S) => if sat then .ok (some S.logIndex, S) else doLoop e p maxn f n S

/-- `do_saturation(p,maxntries)` (saturate.cc:311-342) -/
def doSat (e : Env G) (fuel p maxn : ℕ) (S : St G) : Except Err (Option ℕ × St G) :=
  if e.triv S.Plist p then .ok (some 0, S)
  else do
    let (ok, S) ← testSat e fuel p maxn S
    if ok then pure (some 0, S) else doLoop e p maxn fuel 0 S

/-- `do_saturation(plist,index,unsat,maxntries)` (saturate.cc:369-408): the primes in `unsat`, the index, and the final state; the
value returned is 1 when `unsat` is empty -/
def doSatList (e : Env G) (fuel maxn : ℕ) : List ℕ → List ℕ → ℕ → St G → Except Err (List ℕ × ℕ × St G)
  | [], unsat, index, S => .ok (unsat, index, S)
  | p :: ps, unsat, index, S =>
    if e.triv S.Plist p then doSatList e fuel maxn ps unsat index S
    else do
      let (pi, S) ← doSat e fuel p maxn S
      match pi with
      | none => doSatList e fuel maxn ps (unsat ++ [p]) index S
      | some pi => doSatList e fuel maxn ps unsat (index * p ^ pi) S

/-- the list `satprimes` of `saturate` (saturate.cc:418-484): the primes from `low` to the bound, then the Tamagawa primes above it; `none`
for `satbd` is the value -1.  Simplification: `primevar` is replaced by the list of the primes in order. -/
def satPrimes (egr : Bool) (tam : List ℕ) (ib : ℕ) (satbd : Option ℕ) (low : ℕ) : List ℕ :=
  let ib := match satbd with
    | none => ib
    | some b => if ib < b then ib else b
  (List.range (ib + 1)).filter (fun p => p.Prime ∧ low ≤ p) ++
    if egr then tam.filter (fun t => ib < t ∧ (satbd = none ∨ ∃ b ∈ satbd, t ≤ b)) else []

/-- `saturate` (saturate.cc:410-491), where `ib` is the index bound computed at the beginning -/
def saturate (e : Env G) (fuel maxn : ℕ) (egr : Bool) (tam : List ℕ) (ib : ℕ) (satbd : Option ℕ) (low : ℕ) (L : List G) :
    Except Err (List ℕ × ℕ × St G) :=
  doSatList e fuel maxn (satPrimes egr tam ib satbd low) [] 1 ⟨L, L, ⟨0, []⟩, 0, 0, 0, 0⟩

/-! ### pCoTorsion -/

/-- the loop which finds a point of maximal order (saturate.cc:523-532) -/
def maxLoop (ord : G → ℕ) (n : ℕ) : List G → G → ℕ → G × ℕ
  | [], Q, m => (Q, m)
  | P :: l, Q, m => if m < n then (if ord P > m then maxLoop ord n l P (ord P) else maxLoop ord n l Q m) else (Q, m)

/-- `pCoTorsion` (saturate.cc:514-554); `ord` is `order` -/
def pCoTorsion [DecidableEq G] (ord : G → ℕ) (T : List G) (p : ℕ) : List G :=
  if T.length % p ≠ 0 then []
  else
    let (Q, m) := maxLoop ord T.length T 0 0
    if m = T.length ∨ p > 2 then [Q]
    else
      let Q2 := (m / 2) • Q
      match T.find? (fun P => ord P = 2 ∧ Q2 ≠ P) with
      | some P => [Q, P]
      | none => [Q]

end Eclib.Sat
