import Verif.Tate.Tamagawa
import Mathlib.AlgebraicGeometry.EllipticCurve.VariableChange

/-!
# Specification of the reduction type of a Weierstrass equation at a prime

The Kodaira symbol and the number of components of multiplicity one rational over the residue field
are described by normal forms of the equation, as in Tate's table (Antwerp IV; Silverman, *Advanced
Topics*, IV.9.4).  `TateUnique` shows that an equation has at most one type.
-/

namespace Eclib.Tate

/-- `c` is `a` or `b` according to whether `P` holds -/
def Split (P : Prop) (c a b : ℕ) : Prop := (P ∧ c = a) ∨ (¬ P ∧ c = b)

/-- the discriminant of `x^3+a2 x^2+a4 x+a6` -/
def cubDisc (W : WeierstrassCurve ℤ) : ℤ :=
  W.a₂ ^ 2 * W.a₄ ^ 2 - 4 * W.a₄ ^ 3 - 4 * W.a₂ ^ 3 * W.a₆ - 27 * W.a₆ ^ 2 + 18 * W.a₂ * W.a₄ * W.a₆

/-- the number of roots in the residue field of `T^3+(a2/p)T^2+(a4/p^2)T+a6/p^3` -/
def cubRoots (p : ℕ) (W : WeierstrassCurve ℤ) : ℕ :=
  ((Finset.range p).filter fun T : ℕ =>
    (p : ℤ) ^ 4 ∣ (p * T) ^ 3 + W.a₂ * (p * T) ^ 2 + W.a₄ * (p * T) + W.a₆).card

/-- divisibilities common to the types `I*m`, `m > 0` -/
structure StarLev (p : ℤ) (W : WeierstrassCurve ℤ) (m : ℕ) : Prop where
  a1 : p ∣ W.a₁
  a2 : p ∣ W.a₂
  a2' : ¬ p ^ 2 ∣ W.a₂
  a3 : p ^ ((m + 4) / 2) ∣ W.a₃
  a4 : p ^ ((m + 5) / 2) ∣ W.a₄
  a6 : p ^ (m + 3) ∣ W.a₆

/-- the equation is in normal form of the given type at `p`, with `c` rational components.
For `I*m` with `m` odd the quadratic `Y^2+(a3/p^k)Y-a6/p^2k`, `k = (m+3)/2`, for `m` even the
quadratic `(a2/p)X^2+(a4/p^(k+1))X+a6/p^(2k+1)`, `k = (m+2)/2`, has distinct roots. -/
def NF (p : ℕ) (W : WeierstrassCurve ℤ) : Kodaira → ℕ → Prop
  | .I 0, c => ¬ (p : ℤ) ∣ W.Δ ∧ c = 1
  | .I (n + 1), c => (p : ℤ) ∣ W.a₃ ∧ (p : ℤ) ∣ W.a₄ ∧ (p : ℤ) ∣ W.a₆ ∧ ¬ (p : ℤ) ∣ W.b₂ ∧
      (p : ℤ) ^ (n + 1) ∣ W.Δ ∧ ¬ (p : ℤ) ^ (n + 2) ∣ W.Δ ∧
      Split (∃ T : ℤ, (p : ℤ) ∣ T ^ 2 + W.a₁ * T - W.a₂) c (n + 1) (if Even (n + 1) then 2 else 1)
  | .II, c => (p : ℤ) ∣ W.a₃ ∧ (p : ℤ) ∣ W.a₄ ∧ (p : ℤ) ∣ W.a₆ ∧ (p : ℤ) ∣ W.b₂ ∧
      ¬ (p : ℤ) ^ 2 ∣ W.a₆ ∧ c = 1
  | .III, c => (p : ℤ) ∣ W.a₃ ∧ (p : ℤ) ∣ W.a₄ ∧ (p : ℤ) ∣ W.b₂ ∧ (p : ℤ) ^ 2 ∣ W.a₆ ∧
      ¬ (p : ℤ) ^ 3 ∣ W.b₈ ∧ c = 2
  | .IV, c => (p : ℤ) ∣ W.a₃ ∧ (p : ℤ) ∣ W.a₄ ∧ (p : ℤ) ∣ W.b₂ ∧ (p : ℤ) ^ 2 ∣ W.a₆ ∧
      (p : ℤ) ^ 3 ∣ W.b₈ ∧ ¬ (p : ℤ) ^ 3 ∣ W.b₆ ∧
      Split (∃ Y : ℤ, (p : ℤ) ^ 3 ∣ (p * Y) ^ 2 + W.a₃ * (p * Y) - W.a₆) c 3 1
  | .Istar 0, c => (p : ℤ) ∣ W.a₁ ∧ (p : ℤ) ∣ W.a₂ ∧ (p : ℤ) ^ 2 ∣ W.a₃ ∧ (p : ℤ) ^ 2 ∣ W.a₄ ∧
      (p : ℤ) ^ 3 ∣ W.a₆ ∧ ¬ (p : ℤ) ^ 7 ∣ cubDisc W ∧ c = 1 + cubRoots p W
  | .Istar (m + 1), c => StarLev p W (m + 1) ∧
      if (m + 1) % 2 = 1 then ¬ (p : ℤ) ^ (m + 5) ∣ W.a₃ ^ 2 + 4 * W.a₆ ∧
        Split (∃ Y : ℤ, (p : ℤ) ^ (m + 5) ∣
          (p ^ ((m + 4) / 2) * Y) ^ 2 + W.a₃ * (p ^ ((m + 4) / 2) * Y) - W.a₆) c 4 2
      else ¬ (p : ℤ) ^ (m + 6) ∣ W.a₄ ^ 2 - 4 * W.a₂ * W.a₆ ∧
        Split (∃ X : ℤ, (p : ℤ) ^ (m + 5) ∣
          W.a₂ * (p ^ ((m + 3) / 2) * X) ^ 2 + W.a₄ * (p ^ ((m + 3) / 2) * X) + W.a₆) c 4 2
  | .IVstar, c => (p : ℤ) ∣ W.a₁ ∧ (p : ℤ) ^ 2 ∣ W.a₂ ∧ (p : ℤ) ^ 2 ∣ W.a₃ ∧ (p : ℤ) ^ 3 ∣ W.a₄ ∧
      (p : ℤ) ^ 4 ∣ W.a₆ ∧ ¬ (p : ℤ) ^ 5 ∣ W.a₃ ^ 2 + 4 * W.a₆ ∧
      Split (∃ Y : ℤ, (p : ℤ) ^ 5 ∣ (p ^ 2 * Y) ^ 2 + W.a₃ * (p ^ 2 * Y) - W.a₆) c 3 1
  | .IIIstar, c => (p : ℤ) ∣ W.a₁ ∧ (p : ℤ) ^ 2 ∣ W.a₂ ∧ (p : ℤ) ^ 3 ∣ W.a₃ ∧ (p : ℤ) ^ 3 ∣ W.a₄ ∧
      (p : ℤ) ^ 5 ∣ W.a₆ ∧ ¬ (p : ℤ) ^ 4 ∣ W.a₄ ∧ c = 2
  | .IIstar, c => (p : ℤ) ∣ W.a₁ ∧ (p : ℤ) ^ 2 ∣ W.a₂ ∧ (p : ℤ) ^ 3 ∣ W.a₃ ∧ (p : ℤ) ^ 4 ∣ W.a₄ ∧
      (p : ℤ) ^ 5 ∣ W.a₆ ∧ ¬ (p : ℤ) ^ 6 ∣ W.a₆ ∧ c = 1

/-- the coefficients are divisible as those of a non-minimal equation -/
def NM (p : ℕ) (W : WeierstrassCurve ℤ) : Prop :=
  (p : ℤ) ∣ W.a₁ ∧ (p : ℤ) ^ 2 ∣ W.a₂ ∧ (p : ℤ) ^ 3 ∣ W.a₃ ∧ (p : ℤ) ^ 4 ∣ W.a₄ ∧ (p : ℤ) ^ 6 ∣ W.a₆

/-- `V` arises from `W` by the integral substitution `x+r`, `y+sx+t` -/
def Sim (W V : WeierstrassCurve ℤ) : Prop :=
  ∃ r s t : ℤ, V = (⟨1, r, s, t⟩ : WeierstrassCurve.VariableChange ℤ) • W

/-- the reduction type of `W` at `p` is `k`, with `c` rational components -/
def HasType (p : ℕ) (W : WeierstrassCurve ℤ) (k : Kodaira) (c : ℕ) : Prop := ∃ V, Sim W V ∧ NF p V k c

/-- `W` is not minimal at `p` -/
def NonMinimal (p : ℕ) (W : WeierstrassCurve ℤ) : Prop := ∃ V, Sim W V ∧ NM p V

/-- the number of irreducible components of the special fibre, over an algebraic closure and without
multiplicity -/
def Kodaira.components : Kodaira → ℕ
  | .I 0 => 1
  | .I (n + 1) => n + 1
  | .II => 1
  | .III => 2
  | .IV => 3
  | .Istar n => n + 5
  | .IVstar => 7
  | .IIIstar => 8
  | .IIstar => 9

end Eclib.Tate
