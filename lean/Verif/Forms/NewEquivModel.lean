import Verif.Forms.Model

/-!
# Model of `new_equiv` (libsrc/mequiv.cc): the equivalence test for binary quartics
-/

namespace Eclib.Forms.NewEquiv

/-- the data of a `class quartic` read by `new_equiv`: the coefficients (from which `ii`, `jj`, `disc` are computed,
mquartic.cc:59-61), the `type` and the `equiv_code` -/
structure QD where
  g : G
  type : ℤ
  code : ℕ

/-- `p` of `make_zpol` (mquartic.cc:264) -/
def zp (g : G) : ℤ := -g.HH

/-- `p` (mequiv.cc:63), with NTL's division, which is the floor -/
def uP (g1 g2 : G) : ℤ := Int.fdiv (32 * (g1.a * g2.a) * g1.II + zp g1 * zp g2) 3

/-- `s` (mequiv.cc:64-66) -/
def uS (g1 g2 : G) : ℤ :=
  Int.fdiv (-256 * g1.JJ * (g1.a * g2.a) * (g1.a * zp g2 + g2.a * zp g1)
    + 64 * g1.II * ((zp g1 * zp g1) * (g2.a * g2.a) + (zp g2 * zp g2) * (g1.a * g1.a) + (zp g1 * zp g2) * (g1.a * g2.a))
    - (zp g1 * zp g1) * (zp g2 * zp g2)) 27

/-- `new_equiv(q1,q2,info)` (mequiv.cc:26-84); `introots` is `Introotsquartic` (polys.cc:159-168).  Messages are left
out. -/
def newEquiv (introots : ℤ → ℤ → ℤ → ℤ → List ℤ) (q1 q2 : QD) : Bool :=
  if ¬(q1.g.II = q2.g.II ∧ q1.g.JJ = q2.g.JJ ∧ q1.g.disc = q2.g.disc ∧ q1.type = q2.type) then false
  else if q1.code ≠ q2.code then false
  else
    let p := uP q1.g q2.g
    let s := uS q1.g q2.g
    let r := q1.g.RR * q2.g.RR
    decide ((introots 0 (-2 * p) (-8 * r) s).length > 0)

end Eclib.Forms.NewEquiv
