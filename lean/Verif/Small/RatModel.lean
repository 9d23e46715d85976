import Verif.Arith.Lemmas

/-!
# Model of libsrc/eclib/rat.h and libsrc/eclib/bigrat.h

`rational` has `long` members, `bigrational` has `bigint` members; the two headers have the same
text apart from the types.  The flag `big` selects the meaning of `/` and `%` (C truncation for
`long`, NTL floor for `bigint`).  Overflow of `long` members is not modelled.
-/

namespace Eclib.Ratl

/-- The members `n`, `d` (rat.h:82, bigrat.h:86). -/
structure R where
  n : Int
  d : Int
deriving DecidableEq, Repr

/-- `a/b` on the member type. -/
def quo (big : Bool) (a b : Int) : Int := if big then a.fdiv b else a.tdiv b

/-- `a%b` on the member type. -/
def rem (big : Bool) (a b : Int) : Int := if big then a.fmod b else a.tmod b

/-- `cancel()` (rat.h:85-90, bigrat.h:91-96). -/
def cancel (big : Bool) (r : R) : R :=
  let g : Int := Arith.gcd r.n r.d
  let r := if g > 1 then (⟨quo big r.n g, quo big r.d g⟩ : R) else r
  if r.d < 0 then ⟨-r.n, -r.d⟩ else r

/-- The constructor from numerator and denominator (rat.h:92-96, bigrat.h:98-102). -/
def mk (big : Bool) (n d : Int) : R := cancel big ⟨n, d⟩

/-- unary `-` (rat.h:106-109, bigrat.h:115-118) -/
def neg (big : Bool) (q : R) : R := mk big (-q.n) q.d
/-- `recip` (rat.h:181-184, bigrat.h:179-182) -/
def recip (big : Bool) (q : R) : R := mk big q.d q.n
/-- `q1+q2` (rat.h:193-196, bigrat.h:191-194) -/
def add (big : Bool) (q1 q2 : R) : R := mk big (q1.n * q2.d + q2.n * q1.d) (q1.d * q2.d)
/-- `k+q` (rat.h:198-201, bigrat.h:196-199) -/
def addIL (big : Bool) (k : Int) (q : R) : R := mk big (k * q.d + q.n) q.d
/-- `q+k` (rat.h:203-206, bigrat.h:201-204) -/
def addIR (big : Bool) (q : R) (k : Int) : R := mk big (q.n + k * q.d) q.d
/-- `q1-q2` (rat.h:208-211, bigrat.h:206-209) -/
def sub (big : Bool) (q1 q2 : R) : R := mk big (q1.n * q2.d - q2.n * q1.d) (q1.d * q2.d)
/-- `k-q` (rat.h:213-216, bigrat.h:211-214) -/
def subIL (big : Bool) (k : Int) (q : R) : R := mk big (k * q.d - q.n) q.d
/-- `q-k` (rat.h:218-221, bigrat.h:216-219) -/
def subIR (big : Bool) (q : R) (k : Int) : R := mk big (q.n - k * q.d) q.d
/-- `q*k` and `k*q` (rat.h:223-231, bigrat.h:221-229) -/
def mulI (big : Bool) (q : R) (k : Int) : R := mk big (q.n * k) q.d
/-- `q1*q2` (rat.h:233-236, bigrat.h:231-234) -/
def mul (big : Bool) (q1 q2 : R) : R := mk big (q1.n * q2.n) (q1.d * q2.d)
/-- `q/k` (rat.h:238-241, bigrat.h:236-239) -/
def divI (big : Bool) (q : R) (k : Int) : R := mk big q.n (q.d * k)
/-- `q1/q2` (rat.h:243-246, bigrat.h:241-244) -/
def div (big : Bool) (q1 q2 : R) : R := mk big (q1.n * q2.d) (q1.d * q2.n)
/-- `k/q` (rat.h:248-251, bigrat.h:246-249) -/
def divIL (big : Bool) (k : Int) (q : R) : R := mk big (q.d * k) q.n
/-- `q+=q2` (rat.h:114-120, bigrat.h:123-129) -/
def addAssign (big : Bool) (q q2 : R) : R :=
  let n := q.n * q2.d + q.d * q2.n
  let d := q.d * q2.d
  cancel big ⟨n, d⟩
/-- `q+=k` (rat.h:122-126, bigrat.h:131-135): no cancellation. -/
def addAssignI (q : R) (k : Int) : R := ⟨q.n + q.d * k, q.d⟩
/-- `q-=q2` (rat.h:128-134, bigrat.h:137-143) -/
def subAssign (big : Bool) (q q2 : R) : R :=
  let n := q.n * q2.d - q.d * q2.n
  let d := q.d * q2.d
  cancel big ⟨n, d⟩
/-- `q-=k` (rat.h:136-140, bigrat.h:145-149): no cancellation. -/
def subAssignI (q : R) (k : Int) : R := ⟨q.n - q.d * k, q.d⟩
/-- `q*=q2` (rat.h:142-148; only declared, not defined, in bigrat.h) -/
def mulAssign (big : Bool) (q q2 : R) : R := cancel big ⟨q.n * q2.n, q.d * q2.d⟩
/-- `q*=k` (rat.h:150-155, bigrat.h:151-156) -/
def mulAssignI (big : Bool) (q : R) (k : Int) : R := cancel big ⟨q.n * k, q.d⟩
/-- `q/=k` (rat.h:157-162, bigrat.h:158-163) -/
def divAssignI (big : Bool) (q : R) (k : Int) : R := cancel big ⟨q.n, q.d * k⟩

/-- `==` (rat.h:253-256, bigrat.h:251-254) -/
def eq (q1 q2 : R) : Bool := q1.n * q2.d = q2.n * q1.d
/-- `<` (bigrat.h:261-264) -/
def lt (q1 q2 : R) : Bool := q1.n * q2.d < q2.n * q1.d
/-- `>` (bigrat.h:266-269) -/
def gt (q1 q2 : R) : Bool := q1.n * q2.d > q2.n * q1.d
/-- `floor` (rat.h:297-300, bigrat.h:305-308) -/
def floor (big : Bool) (r : R) : Int := quo big (r.n - rem big r.n r.d) r.d
/-- `ceil` (rat.h:302-306, bigrat.h:310-314) -/
def ceil (big : Bool) (r : R) : Int :=
  if r.d = 1 then r.n else 1 + quo big (r.n - rem big r.n r.d) r.d
/-- `round` (rat.h:186-189, bigrat.h:184-187): "provisional" -/
def round (big : Bool) (r : R) : Int := quo big r.n r.d

/-- A computation with rationals: every constructor and operator of the two headers. -/
inductive Expr
  | lit (n d : Int)
  | neg (e : Expr)
  | recip (e : Expr)
  | add (e f : Expr)
  | addIL (k : Int) (e : Expr)
  | addIR (e : Expr) (k : Int)
  | sub (e f : Expr)
  | subIL (k : Int) (e : Expr)
  | subIR (e : Expr) (k : Int)
  | mul (e f : Expr)
  | mulI (e : Expr) (k : Int)
  | div (e f : Expr)
  | divI (e : Expr) (k : Int)
  | divIL (k : Int) (e : Expr)
  | addAssign (e f : Expr)
  | addAssignI (e : Expr) (k : Int)
  | subAssign (e f : Expr)
  | subAssignI (e : Expr) (k : Int)
  | mulAssign (e f : Expr)
  | mulAssignI (e : Expr) (k : Int)
  | divAssignI (e : Expr) (k : Int)

/-- Execution of a computation by the code. -/
def Expr.run (big : Bool) : Expr → R
  | lit n d => Ratl.mk big n d
  | neg e => Ratl.neg big (e.run big)
  | recip e => Ratl.recip big (e.run big)
  | add e f => Ratl.add big (e.run big) (f.run big)
  | addIL k e => Ratl.addIL big k (e.run big)
  | addIR e k => Ratl.addIR big (e.run big) k
  | sub e f => Ratl.sub big (e.run big) (f.run big)
  | subIL k e => Ratl.subIL big k (e.run big)
  | subIR e k => Ratl.subIR big (e.run big) k
  | mul e f => Ratl.mul big (e.run big) (f.run big)
  | mulI e k => Ratl.mulI big (e.run big) k
  | div e f => Ratl.div big (e.run big) (f.run big)
  | divI e k => Ratl.divI big (e.run big) k
  | divIL k e => Ratl.divIL big k (e.run big)
  | addAssign e f => Ratl.addAssign big (e.run big) (f.run big)
  | addAssignI e k => Ratl.addAssignI (e.run big) k
  | subAssign e f => Ratl.subAssign big (e.run big) (f.run big)
  | subAssignI e k => Ratl.subAssignI (e.run big) k
  | mulAssign e f => Ratl.mulAssign big (e.run big) (f.run big)
  | mulAssignI e k => Ratl.mulAssignI big (e.run big) k
  | divAssignI e k => Ratl.divAssignI big (e.run big) k

end Eclib.Ratl
