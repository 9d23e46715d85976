import Verif.Arith.Euclid

/-!
# Model of libsrc/eclib/xmod.h (the branch without `USE_DMOD`)

Overflow of `int` (32 bits) and `int64_t`/`long` (64 bits) is undefined behaviour: every
intermediate value is checked and `none` means that the code has undefined behaviour.
-/

namespace Eclib.Xmod

/-- `PRIME30` (xmod.h:46), `BIGPRIME` (xmod.h:112) -/
def P : Int := 1073741789
/-- `BIGPRIME>>1` (xmod.h:113) -/
def HALF : Int := P / 2
/-- xmod.h:114 -/
def TWO : Int := 2147483578
/-- xmod.h:115 -/
def INV : Int := 4294967436

/-- fits in `int` -/
def I32 (x : Int) : Prop := -2147483648 ≤ x ∧ x ≤ 2147483647
/-- fits in `int64_t` -/
def I64 (x : Int) : Prop := -9223372036854775808 ≤ x ∧ x ≤ 9223372036854775807

instance (x : Int) : Decidable (I32 x) := by unfold I32; infer_instance
instance (x : Int) : Decidable (I64 x) := by unfold I64; infer_instance

/-- a value which must fit in `int` -/
def i32 (x : Int) : Option Int := if I32 x then some x else none
/-- a value which must fit in `int64_t` -/
def i64 (x : Int) : Option Int := if I64 x then some x else none

/-- `if (a<0) a+=BIGPRIME;` (xmod.h:156-157) -/
def lift (a : Int) : Option Int := if a < 0 then i32 (a + P) else some a

/-- `int xmm0(int a, int b)` (xmod.h:150-172).  `>>` is the arithmetic shift, floor division. -/
def xmm0 (a b : Int) : Option Int :=
  if a = 1 then some b
  else if a = -1 then i32 (-b)
  else if b = 1 then some a
  else if b = -1 then i32 (-a)
  else do
    let a ← lift a
    let b ← lift b
    let ab ← i64 (a * b)
    let t ← i64 (INV * (ab / 2 ^ 30))
    let u ← i64 ((t / 2 ^ 32) * P)
    let r ← i64 (ab - u)
    let r ← i64 (r - ((if r ≥ TWO then P else 0) + (if r ≥ P then P else 0)))
    let r ← i64 (if r > HALF then r - P else r)
    i32 r

/-- `while(a>HALF_BIGPRIME) a-=BIGPRIME;` (xmod.h:128) -/
def downLoop (a : Int) : Int := if _h : a > HALF then downLoop (a - P) else a
termination_by a.toNat
decreasing_by
  simp only [HALF, P] at _h ⊢
  omega

/-- `while(-a>HALF_BIGPRIME) a+=BIGPRIME;` (xmod.h:130) -/
def upLoop (a : Int) : Int := if _h : -a > HALF then upLoop (a + P) else a
termination_by (-a).toNat
decreasing_by
  simp only [HALF, P] at _h ⊢
  omega

/-- `int mod0(int a)` (xmod.h:125-132) and `long mod0(long a)` (xmod.h:135), which first reduces with
`%`. -/
def mod0 (a : Int) : Int :=
  let a := a.tmod P
  if a > 0 then downLoop a else upLoop a

/-- `int xmodmul(int a, int b, int m)` (xmod.h:179-183); `xmodmul0` (137-140) is the second line with
`m = BIGPRIME`. -/
def xmodmul (a b m : Int) : Option Int :=
  if m = P then xmm0 a b
  else (i64 (a * b)).bind fun ab => (i32 (ab.tmod m)).map (·.tmod m)

/-- `int xmodmul0(int a, int b)` (xmod.h:137-140). -/
def xmodmul0 (a b : Int) : Option Int :=
  (i64 (a * b)).bind fun ab => (i32 (ab.tmod P)).map (·.tmod P)

/-- `table_invs` (xmod.h:207) -/
def tableInvs : List Int := [0, 1, 536870895, 357913930, 805306342, 214748358, 178956965, 920350105,
  402653171, 477218573, 107374179, 97612890, 626349377, 330382089, 997045947, 71582786, 738197480,
  442128972, 775480181, 226050903]

/-- The loop of `invmod0(int)` (xmod.h:259-264): all new values are checked to fit in `int`.
The result is the final `(a, oldx)`. -/
def invLoop (a b x oldx : Int) : Option (Int × Int) :=
  if _h : b = 0 then some (a, oldx)
  else
    let q := a.tdiv b
    if I32 q ∧ I32 (q * b) ∧ I32 (a - q * b) ∧ I32 (q * x) ∧ I32 (oldx - q * x) then
      invLoop b (a - q * b) (oldx - q * x) x
    else none
termination_by b.natAbs
decreasing_by
  have : a - a.tdiv b * b = a.tmod b := by
    have := Int.tmod_add_mul_tdiv a b
    linarith [mul_comm b (a.tdiv b)]
  rw [this, Int.natAbs_tmod]
  exact Nat.mod_lt _ (Int.natAbs_pos.mpr _h)

/-- `int invmod0(int aa)` (xmod.h:245-269).  The message in the last case is not modelled. -/
def invmod0 (a : Int) : Option Int :=
  if 0 < a ∧ a < 20 then some (tableInvs.getD a.toNat 0)
  else (i32 (-a)).bind fun ma =>
    if 0 < ma ∧ ma < 20 then some (-tableInvs.getD ma.toNat 0)
    else (i32 (ma + P)).bind fun ma =>
      if 0 < ma ∧ ma < 20 then some (-tableInvs.getD ma.toNat 0)
      else (i32 (a - P)).bind fun ma =>
        if 0 < ma ∧ ma < 20 then some (tableInvs.getD ma.toNat 0)
        else (invLoop a P 0 1).bind fun r =>
          if r.1 = 1 then some r.2 else if r.1 = -1 then i32 (-r.2) else some 0

end Eclib.Xmod
