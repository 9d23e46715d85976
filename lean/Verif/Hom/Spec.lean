import Verif.Symb.Props
import Mathlib.Data.Rat.Lemmas
import Mathlib.Topology.Compactification.OnePoint.Basic
import Mathlib.Algebra.Field.Basic

/-!
# Manin's relations and modular symbols: specification
-/

set_option linter.unusedSectionVars false

namespace Eclib.Hom

open Symb.SymbSpec

namespace ManinSpec

/-- A function on M-symbols of level `N` with the relations of Manin.  For `pf = ±1` it is moreover an
eigenfunction of `(c:d) ↦ (-c:d)` with eigenvalue `pf`. -/
structure IsManin {K : Type*} [Field K] (N pf : ℤ) (φ : ℤ → ℤ → K) : Prop where
  equiv : ∀ {c d c' d' : ℤ}, Unimod N c d → Equiv N c d c' d' → φ c d = φ c' d'
  two : ∀ {c d : ℤ}, Unimod N c d → φ c d + φ (-d) c = 0
  three : ∀ {c d : ℤ}, Unimod N c d → φ c d + φ (c - d) c + φ (-d) (c - d) = 0
  sign : pf ≠ 0 → ∀ {c d : ℤ}, Unimod N c d → φ (-c) d = (pf : K) * φ c d

theorem _root_.Eclib.Hom.um_s {N c d : ℤ} (h : Unimod N c d) : Unimod N (-d) c := by
  simpa using Symb.Props.Unimod.apply h (a := 0) (b := -1) (x := 1) (y := 0) (e := 1) (by norm_num) (by norm_num)

theorem _root_.Eclib.Hom.um_t {N c d : ℤ} (h : Unimod N c d) : Unimod N (c - d) c := by
  simpa [sub_eq_add_neg] using
    Symb.Props.Unimod.apply h (a := 1) (b := -1) (x := 1) (y := 0) (e := 1) (by norm_num) (by norm_num)

theorem _root_.Eclib.Hom.um_tt {N c d : ℤ} (h : Unimod N c d) : Unimod N (-d) (c - d) := by
  simpa [sub_eq_add_neg] using
    Symb.Props.Unimod.apply h (a := 0) (b := -1) (x := 1) (y := -1) (e := 1) (by norm_num) (by norm_num)

theorem _root_.Eclib.Hom.um_r {N c d : ℤ} (h : Unimod N c d) : Unimod N (-c) d := by
  simpa using Symb.Props.Unimod.apply h (a := -1) (b := 0) (x := 0) (y := 1) (e := -1) (by norm_num) (by norm_num)

theorem IsManin.congr {K : Type*} [Field K] {N pf : ℤ} {φ ψ : ℤ → ℤ → K} (h : IsManin N pf φ)
    (e : ∀ {c d : ℤ}, Unimod N c d → ψ c d = φ c d) : IsManin N pf ψ :=
  ⟨fun hu he => by rw [e hu, e (Symb.Unimod.of_equiv he hu), h.equiv hu he],
    fun hu => by rw [e hu, e (um_s hu), h.two hu],
    fun hu => by rw [e hu, e (um_t hu), e (um_tt hu), h.three hu],
    fun hp _ _ hu => by rw [e hu, e (um_r hu), h.sign hp hu]⟩

/-- the cusp `a/c` -/
noncomputable def cusp (a c : ℤ) : OnePoint ℚ := if c = 0 then OnePoint.infty else (((a : ℚ) / c : ℚ) : OnePoint ℚ)

/-- the linear fractional transformation `x ↦ (ax+b)/(cx+d)` -/
noncomputable def mob (a b c d : ℤ) : OnePoint ℚ → OnePoint ℚ
  | none => cusp a c
  | some x => if c * x + d = 0 then OnePoint.infty else (((a * x + b) / (c * x + d) : ℚ) : OnePoint ℚ)

/-- A modular symbol for `Γ₀(N)`: a function of two cusps, additive and invariant under `Γ₀(N)`.  For
`pf = ±1` it is moreover an eigenfunction of `x ↦ -x` with eigenvalue `pf`. -/
structure IsModSym {K : Type*} [Field K] (N pf : ℤ) (f : OnePoint ℚ → OnePoint ℚ → K) : Prop where
  add : ∀ α β γ, f α β + f β γ = f α γ
  inv : ∀ a b c d : ℤ, a * d - b * c = 1 → N ∣ c → ∀ α β, f (mob a b c d α) (mob a b c d β) = f α β
  sign : pf ≠ 0 → ∀ α β, f (mob (-1) 0 0 1 α) (mob (-1) 0 0 1 β) = (pf : K) * f α β

/-- The function `φ` on M-symbols belongs to the modular symbol `f`: `(c:d)` stands for `{b/d, a/c}` with
`ad - bc = 1`. -/
def Assoc {K : Type*} [Field K] (f : OnePoint ℚ → OnePoint ℚ → K) (φ : ℤ → ℤ → K) : Prop :=
  ∀ a b c d : ℤ, a * d - b * c = 1 → φ c d = f (cusp b d) (cusp a c)

end ManinSpec

end Eclib.Hom
