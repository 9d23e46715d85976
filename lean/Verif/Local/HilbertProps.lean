import Verif.Local.HilbertLocal
import Verif.Marith.Props
import Mathlib.NumberTheory.LegendreSymbol.QuadraticReciprocity

/-! # The local Hilbert symbol (C45) -/

namespace Eclib.Local

open Eclib.Marith (divideOut legendre)

variable {p : ℕ} [hp : Fact p.Prime]

theorem divideOut_eq {u : ℤ} (k : ℕ) (hu : ¬ (p : ℤ) ∣ u) :
    divideOut ((p : ℤ) ^ k * u) p = some (u, k) := by
  have hp2 := hp.out.two_le
  have hp0 : (p : ℤ) ≠ 0 := by exact_mod_cast hp.out.ne_zero
  have hu0 : u ≠ 0 := fun h => hu (h ▸ dvd_zero _)
  obtain ⟨a', e, h1, h2, h3, -⟩ := Eclib.Marith.Props.C06_divide_out ((p : ℤ) ^ k * u) p
    (mul_ne_zero (pow_ne_zero _ hp0) hu0) (by
      have : (2 : ℤ) ≤ p := by exact_mod_cast hp2
      rw [abs_of_nonneg (by omega)]
      exact this)
  rw [h1]
  have key : ∀ (m n : ℕ) (x y : ℤ), m < n → (p : ℤ) ^ m * x = (p : ℤ) ^ n * y → (p : ℤ) ∣ x := by
    intro m n x y hmn h
    have e : (p : ℤ) ^ n = (p : ℤ) ^ m * ((p : ℤ) * (p : ℤ) ^ (n - m - 1)) := by
      rw [← pow_succ', ← pow_add]
      congr 1
      omega
    rw [e, mul_assoc] at h
    have := mul_left_cancel₀ (pow_ne_zero m hp0) h
    rw [this, mul_assoc]
    exact Dvd.intro _ rfl
  rcases Nat.lt_trichotomy k e with h | h | h
  · exact absurd (key k e u a' h h2) hu
  · subst h
    rw [mul_left_cancel₀ (pow_ne_zero k hp0) h2]
  · exact absurd (key e k a' u h h2.symm) h3

/-- every non-zero integer is a power of `p` times an integer prime to `p` -/
theorem exists_unit_part {a : ℤ} (ha : a ≠ 0) : ∃ (k : ℕ) (u : ℤ), a = (p : ℤ) ^ k * u ∧ ¬ (p : ℤ) ∣ u := by
  have hp2 := hp.out.two_le
  obtain ⟨a', e, h1, h2, h3, -⟩ := Eclib.Marith.Props.C06_divide_out a p ha (by
      have : (2 : ℤ) ≤ p := by exact_mod_cast hp2
      rw [abs_of_nonneg (by omega)]
      exact this)
  exact ⟨e, a', h2, h3⟩

/-- `w` is a non-residue -/
def nonres (p : ℕ) (w : ℤ) : Bool := jacobiSym w p == -1

/-- the symbol at an odd prime, in closed form -/
def symOdd (p : ℕ) (u v : ℤ) (al be : Bool) : Bool :=
  ((al && be && p % 4 == 3).xor (al && nonres p v)).xor (be && nonres p u)

theorem hilbertOdd_eq (hp2 : p ≠ 2) (u v : ℤ) (al be : Bool) :
    hilbertOdd u v p al be = some (symOdd p u v al be) := by
  have hodd := hp.out.odd_of_ne_two hp2
  have ht : ∀ (c : Bool) (w : ℤ) (ans : Bool), toggle c w p ans = some (ans.xor (c && nonres p w)) := by
    intro c w ans
    cases c with
    | false => simp [toggle]
    | true =>
      rw [toggle, if_pos rfl, Eclib.Marith.legendre_eq w p hodd]
      simp only [nonres, Bool.true_and]
      by_cases h : jacobiSym w p = -1
      · simp [h]
      · have : (jacobiSym w p == -1) = false := by simpa using h
        simp [h, this]
  have h4 : (((p : ℤ) + 1).fmod 4 == 0) = (p % 4 == 3) := by
    rw [Int.fmod_eq_emod_of_nonneg _ (by norm_num)]
    rw [Bool.eq_iff_iff, beq_iff_eq, beq_iff_eq]
    omega
  simp only [hilbertOdd, ht, h4, symOdd]
  cases al <;> cases be <;> simp

theorem nonres_iff {w : ℤ} : nonres p w = true ↔ ¬ IsSquare (w : ZMod p) := by
  rw [nonres, beq_iff_eq, ← jacobiSym.legendreSym.to_jacobiSym, legendreSym.eq_neg_one_iff]

theorem nonres_mul {u v : ℤ} (hu : ¬ (p : ℤ) ∣ u) (hv : ¬ (p : ℤ) ∣ v) :
    nonres p (u * v) = (nonres p u).xor (nonres p v) := by
  have h0 : ∀ w : ℤ, ¬ (p : ℤ) ∣ w → jacobiSym w p = 1 ∨ jacobiSym w p = -1 := by
    intro w hw
    rw [← jacobiSym.legendreSym.to_jacobiSym]
    exact legendreSym.eq_one_or_neg_one p (ne_zero_of_not_dvd hw)
  simp only [nonres, jacobiSym.mul_left]
  rcases h0 u hu with h1 | h1 <;> rcases h0 v hv with h2 | h2 <;> rw [h1, h2] <;> rfl

theorem nonres_neg_one (hp2 : p ≠ 2) : nonres p (-1) = (p % 4 == 3) := by
  have hodd := hp.out.odd_of_ne_two hp2
  rw [nonres, jacobiSym.at_neg_one hodd, ZMod.χ₄_nat_eq_if_mod_four]
  have : p % 4 = 1 ∨ p % 4 = 3 := by
    have := Nat.odd_iff.mp hodd
    omega
  have h2 : p % 2 ≠ 0 := by
    have := Nat.odd_iff.mp hodd
    omega
  rcases this with h | h
  · simp [h, h2]
  · simp [h, h2]

theorem not_dvd_neg_one : ¬ (p : ℤ) ∣ -1 := by
  rw [dvd_neg]
  intro h
  have : p ∣ 1 := by exact_mod_cast h
  exact hp.out.one_lt.ne' (Nat.dvd_one.mp this)

theorem sol_odd_iff (hp2 : p ≠ 2) {u v : ℤ} (hu : ¬ (p : ℤ) ∣ u) (hv : ¬ (p : ℤ) ∣ v) (k l : ℕ) :
    Sol p ((p : ℤ) ^ k * u) ((p : ℤ) ^ l * v) ↔ symOdd p u v (k % 2 == 1) (l % 2 == 1) = false := by
  have hn : ∀ w : ℤ, nonres p w = false ↔ IsSquare (w : ZMod p) := by
    intro w
    rw [← Bool.not_eq_true, nonres_iff, not_not]
  rw [sol_reduce]
  rcases Nat.mod_two_eq_zero_or_one k with hk | hk <;> rcases Nat.mod_two_eq_zero_or_one l with hl | hl <;>
    rw [hk, hl]
  · rw [pow_zero, one_mul, one_mul]
    exact iff_of_true (sol_odd_units hp2 hu hv) (by simp [symOdd])
  · rw [pow_zero, one_mul, pow_one, sol_comm, sol_odd_left hp2 hv hu, ← hn]
    simp [symOdd]
  · rw [pow_zero, one_mul, pow_one, sol_odd_left hp2 hu hv, ← hn]
    simp [symOdd]
  · rw [pow_one, sol_odd_both hp2 hu hv, ← hn]
    have e : -(u * v) = (-1) * (u * v) := by ring
    have huv : ¬ (p : ℤ) ∣ u * v := by
      intro hd
      rcases (Nat.prime_iff_prime_int.mp hp.out).dvd_or_dvd hd with h | h
      · exact hu h
      · exact hv h
    rw [e, nonres_mul not_dvd_neg_one huv, nonres_mul hu hv, nonres_neg_one hp2]
    simp only [symOdd, beq_self_eq_true, Bool.true_and]
    cases (p % 4 == 3) <;> cases nonres p u <;> cases nonres p v <;> simp

/-! ### the prime two in closed form -/

theorem fmod4 (x : ℤ) : (x.fmod 4 == 0) = (x % 4 == 0) := by
  rw [Int.fmod_eq_emod_of_nonneg _ (by norm_num)]

theorem fmod8 (x : ℤ) : (x.fmod 8 == 0) = (x % 8 == 0) := by
  rw [Int.fmod_eq_emod_of_nonneg _ (by norm_num)]

/-- congruence class `3` modulo `4` -/
def e4 (u : ℤ) : Bool := u % 4 == 3

/-- congruence class `3` or `5` modulo `8` -/
def o8 (u : ℤ) : Bool := u % 8 == 3 || u % 8 == 5

theorem omega8_eq (u : ℤ) : omega8 u = o8 u := by
  rw [omega8, fmod8, fmod8, o8, Bool.eq_iff_iff]
  simp only [Bool.or_eq_true, beq_iff_eq]
  omega

/-- the symbol at two in closed form -/
def symTwo (u v : ℤ) (al be : Bool) : Bool := ((e4 u && e4 v).xor (al && o8 v)).xor (be && o8 u)

theorem hilbertTwo_eq (u v : ℤ) (al be : Bool) : hilbertTwo u v al be = symTwo u v al be := by
  have h4 : ∀ w : ℤ, ((w + 1).fmod 4 == 0) = e4 w := by
    intro w
    rw [fmod4, e4, Bool.eq_iff_iff, beq_iff_eq, beq_iff_eq]
    omega
  simp only [hilbertTwo, h4, omega8_eq, symTwo]
  cases e4 u <;> cases e4 v <;> cases al <;> cases be <;> cases o8 u <;> cases o8 v <;> rfl

theorem sol_two_iff {u v : ℤ} (hu : ¬ (2 : ℤ) ∣ u) (hv : ¬ (2 : ℤ) ∣ v) (k l : ℕ) :
    Sol 2 ((2 : ℤ) ^ k * u) ((2 : ℤ) ^ l * v) ↔ symTwo u v (k % 2 == 1) (l % 2 == 1) = false := by
  have hr := sol_reduce (p := 2) u v k l
  rw [Nat.cast_ofNat] at hr
  rw [hr]
  have hleft : ∀ u v : ℤ, ¬ (2 : ℤ) ∣ u → ¬ (2 : ℤ) ∣ v →
      ((v % 8 = 1 ∨ (2 * u + v) % 8 = 1) ↔ ((e4 u && e4 v).xor (o8 v)) = false) := by
    intro u v hu hv
    rcases odd8 hu with h1 | h1 | h1 | h1 <;> rcases odd8 hv with h2 | h2 | h2 | h2
    all_goals
      have h3 : u % 4 = (u % 8) % 4 := by omega
      have h4 : v % 4 = (v % 8) % 4 := by omega
      generalize hr : ((e4 u && e4 v).xor (o8 v)) = r
      simp only [e4, o8, h3, h4, h1, h2] at hr
      rw [← hr]
      first
        | exact iff_of_true (by omega) (by decide)
        | exact iff_of_false (by omega) (by decide)
  rcases Nat.mod_two_eq_zero_or_one k with hk | hk <;> rcases Nat.mod_two_eq_zero_or_one l with hl | hl <;>
    rw [hk, hl]
  · rw [pow_zero, one_mul, one_mul, sol_two_units hu hv]
    simp only [symTwo, e4]
    by_cases h1 : u % 4 = 3 <;> by_cases h2 : v % 4 = 3 <;> simp [h1, h2]
  · rw [pow_zero, one_mul, pow_one, sol_comm, sol_two_left hv hu, hleft v u hv hu]
    simp only [symTwo]
    cases e4 u <;> cases e4 v <;> cases o8 u <;> simp
  · rw [pow_zero, one_mul, pow_one, sol_two_left hu hv, hleft u v hu hv]
    simp only [symTwo]
    cases e4 u <;> cases e4 v <;> cases o8 v <;> simp
  · rw [pow_one, sol_two_both hu hv]
    rcases odd8 hu with h1 | h1 | h1 | h1 <;> rcases odd8 hv with h2 | h2 | h2 | h2
    all_goals
      have h3 : u % 4 = (u % 8) % 4 := by omega
      have h4 : v % 4 = (v % 8) % 4 := by omega
      simp only [symTwo, e4, o8, h3, h4, h1, h2]
      first
        | exact iff_of_true (by omega) (by decide)
        | exact iff_of_false (by omega) (by decide)

/-! ### the code -/

/-- the symbol, in closed form -/
def sym (p : ℕ) (u v : ℤ) (al be : Bool) : Bool :=
  if p = 2 then symTwo u v al be else symOdd p u v al be

theorem sol_iff {u v : ℤ} (hu : ¬ (p : ℤ) ∣ u) (hv : ¬ (p : ℤ) ∣ v) (k l : ℕ) :
    Sol p ((p : ℤ) ^ k * u) ((p : ℤ) ^ l * v) ↔ sym p u v (k % 2 == 1) (l % 2 == 1) = false := by
  by_cases h2 : p = 2
  · subst h2
    rw [sym, if_pos rfl]
    have := sol_two_iff (u := u) (v := v) (by simpa using hu) (by simpa using hv) k l
    rw [Nat.cast_ofNat]
    exact this
  · rw [sym, if_neg h2]
    exact sol_odd_iff h2 hu hv k l

theorem localHilbert_eq {u v : ℤ} (hu : ¬ (p : ℤ) ∣ u) (hv : ¬ (p : ℤ) ∣ v) (k l : ℕ) :
    localHilbert ((p : ℤ) ^ k * u) ((p : ℤ) ^ l * v) p =
      some (b2i (sym p u v (k % 2 == 1) (l % 2 == 1))) := by
  have hp0 : (p : ℤ) ≠ 0 := by exact_mod_cast hp.out.ne_zero
  have hpos : ¬ (p : ℤ) ≤ 0 := by
    have := hp.out.pos
    omega
  have hu0 : u ≠ 0 := fun h => hu (h ▸ dvd_zero _)
  have hv0 : v ≠ 0 := fun h => hv (h ▸ dvd_zero _)
  rw [localHilbert, if_neg (mul_ne_zero (pow_ne_zero _ hp0) hu0),
    if_neg (mul_ne_zero (pow_ne_zero _ hp0) hv0), if_neg hpos, divideOut_eq k hu, divideOut_eq l hv]
  simp only [sym]
  by_cases h2 : p = 2
  · subst h2
    rw [if_pos rfl, if_pos (by norm_num), hilbertTwo_eq]
  · rw [if_neg h2, if_neg (by exact_mod_cast h2), hilbertOdd_eq h2]
    rfl

theorem b2i_eq_zero (b : Bool) : b2i b = 0 ↔ b = false := by cases b <;> simp [b2i]

/-- **C45**, finite primes: for every prime `p` and all non-zero integers, `local_hilbert(a,b,p)`
returns `0` or `1`, and `0` exactly when `a x^2 + b y^2 = z^2` has a non-trivial solution in the
`p`-adic numbers. -/
theorem C45_local {a b : ℤ} (ha : a ≠ 0) (hb : b ≠ 0) :
    ∃ h, localHilbert a b p = some h ∧ (h = 0 ∨ h = 1) ∧ (h = 0 ↔ Sol p a b) := by
  obtain ⟨k, u, rfl, hu⟩ := exists_unit_part (p := p) ha
  obtain ⟨l, v, rfl, hv⟩ := exists_unit_part (p := p) hb
  refine ⟨_, localHilbert_eq hu hv k l, ?_, ?_⟩
  · cases sym p u v (k % 2 == 1) (l % 2 == 1) <;> simp [b2i]
  · rw [b2i_eq_zero, sol_iff hu hv]

/-- **C45**, the infinite prime (`p = 0` or negative): `0` exactly when soluble over the reals. -/
theorem C45_real {a b q : ℤ} (ha : a ≠ 0) (hb : b ≠ 0) (hq : q ≤ 0) :
    ∃ h, localHilbert a b q = some h ∧ (h = 0 ∨ h = 1) ∧ (h = 0 ↔ SolReal a b) := by
  rw [localHilbert, if_neg ha, if_neg hb, if_pos hq, solReal_iff ha hb]
  split_ifs with h1 h2
  · exact ⟨0, rfl, Or.inl rfl, by simp [h1]⟩
  · exact ⟨0, rfl, Or.inl rfl, by simp [h2]⟩
  · exact ⟨1, rfl, Or.inr rfl, by simp [h1, h2]⟩

/-- **C45**, symmetry, at every prime and at infinity. -/
theorem C45_symm {a b q : ℤ} (ha : a ≠ 0) (hb : b ≠ 0) (hq : q ≤ 0 ∨ Prime q) :
    localHilbert a b q = localHilbert b a q := by
  by_cases hq0 : q ≤ 0
  · rw [localHilbert, localHilbert, if_neg ha, if_neg hb, if_neg hb, if_neg ha, if_pos hq0]
    split_ifs <;> rfl
  · have hpr : Prime q := hq.resolve_left hq0
    obtain ⟨p, rfl⟩ : ∃ p : ℕ, (p : ℤ) = q := ⟨q.toNat, Int.toNat_of_nonneg (by omega)⟩
    have : Fact p.Prime := ⟨Nat.prime_iff_prime_int.mpr hpr⟩
    obtain ⟨k, u, rfl, hu⟩ := exists_unit_part (p := p) ha
    obtain ⟨l, v, rfl, hv⟩ := exists_unit_part (p := p) hb
    rw [localHilbert_eq hu hv k l, localHilbert_eq hv hu l k]
    congr 2
    simp only [sym, symTwo, symOdd]
    generalize (k % 2 == 1) = a1
    generalize (l % 2 == 1) = a2
    generalize nonres p u = a3
    generalize nonres p v = a4
    generalize (p % 4 == 3) = a5
    generalize e4 u = a6
    generalize e4 v = a7
    generalize o8 u = a8
    generalize o8 v = a9
    split_ifs
    · revert a1 a2 a6 a7 a8 a9; decide
    · revert a1 a2 a3 a4 a5; decide

theorem odd_add (k k' : ℕ) : ((k + k') % 2 == 1) = (k % 2 == 1).xor (k' % 2 == 1) := by
  rcases Nat.mod_two_eq_zero_or_one k with h | h <;> rcases Nat.mod_two_eq_zero_or_one k' with h' | h' <;>
    rw [Nat.add_mod, h, h'] <;> rfl

theorem e4_mul {u u' : ℤ} (hu : ¬ (2 : ℤ) ∣ u) (hu' : ¬ (2 : ℤ) ∣ u') :
    e4 (u * u') = (e4 u).xor (e4 u') := by
  have h1 : u % 4 = 1 ∨ u % 4 = 3 := by omega
  have h2 : u' % 4 = 1 ∨ u' % 4 = 3 := by omega
  rw [e4, e4, e4, Int.mul_emod]
  rcases h1 with h1 | h1 <;> rcases h2 with h2 | h2 <;> rw [h1, h2] <;> decide

theorem o8_mul {u u' : ℤ} (hu : ¬ (2 : ℤ) ∣ u) (hu' : ¬ (2 : ℤ) ∣ u') :
    o8 (u * u') = (o8 u).xor (o8 u') := by
  rw [o8, o8, o8, Int.mul_emod]
  rcases odd8 hu with h1 | h1 | h1 | h1 <;> rcases odd8 hu' with h2 | h2 | h2 | h2 <;>
    rw [h1, h2] <;> decide

theorem sym_mul {u u' v : ℤ} (hu : ¬ (p : ℤ) ∣ u) (hu' : ¬ (p : ℤ) ∣ u') (k k' : ℕ) (be : Bool) :
    sym p (u * u') v ((k + k') % 2 == 1) be =
      (sym p u v (k % 2 == 1) be).xor (sym p u' v (k' % 2 == 1) be) := by
  rw [odd_add]
  generalize (k % 2 == 1) = a1
  generalize (k' % 2 == 1) = a2
  simp only [sym]
  split_ifs with h2
  · subst h2
    simp only [symTwo]
    rw [e4_mul (by simpa using hu) (by simpa using hu'), o8_mul (by simpa using hu) (by simpa using hu')]
    generalize e4 u = b1
    generalize e4 u' = b2
    generalize e4 v = b3
    generalize o8 u = b4
    generalize o8 u' = b5
    generalize o8 v = b6
    revert a1 a2 be b1 b2 b3 b4 b5 b6
    decide
  · simp only [symOdd]
    rw [nonres_mul hu hu']
    generalize (p % 4 == 3) = b1
    generalize nonres p u = b2
    generalize nonres p u' = b3
    generalize nonres p v = b4
    revert a1 a2 be b1 b2 b3 b4
    decide

/-- **C45**, multiplicativity in the first argument (and, with `C45_symm`, in the second): the
answers for `a`, `a'` and `a a'` add up to an even number, at every prime and at infinity. -/
theorem C45_mul {a a' b q : ℤ} (ha : a ≠ 0) (ha' : a' ≠ 0) (hb : b ≠ 0) (hq : q ≤ 0 ∨ Prime q) :
    ∃ h h', localHilbert a b q = some h ∧ localHilbert a' b q = some h' ∧
      localHilbert (a * a') b q = some ((h + h') % 2) := by
  by_cases hq0 : q ≤ 0
  · simp only [localHilbert, if_neg ha, if_neg ha', if_neg hb, if_pos hq0, if_neg (mul_ne_zero ha ha')]
    rcases lt_or_gt_of_ne ha with h1 | h1 <;> rcases lt_or_gt_of_ne ha' with h2 | h2
    · rw [if_neg (not_lt.mpr h1.le), if_neg (not_lt.mpr h2.le), if_pos (mul_pos_of_neg_of_neg h1 h2)]
      split_ifs
      · exact ⟨0, 0, rfl, rfl, rfl⟩
      · exact ⟨1, 1, rfl, rfl, rfl⟩
    · rw [if_neg (not_lt.mpr h1.le), if_pos h2, if_neg (not_lt.mpr (mul_neg_of_neg_of_pos h1 h2).le)]
      split_ifs
      · exact ⟨0, 0, rfl, rfl, rfl⟩
      · exact ⟨1, 0, rfl, rfl, rfl⟩
    · rw [if_pos h1, if_neg (not_lt.mpr h2.le), if_neg (not_lt.mpr (mul_neg_of_pos_of_neg h1 h2).le)]
      split_ifs
      · exact ⟨0, 0, rfl, rfl, rfl⟩
      · exact ⟨0, 1, rfl, rfl, rfl⟩
    · rw [if_pos h1, if_pos h2, if_pos (mul_pos h1 h2)]
      exact ⟨0, 0, rfl, rfl, rfl⟩
  · have hpr : Prime q := hq.resolve_left hq0
    obtain ⟨p, rfl⟩ : ∃ p : ℕ, (p : ℤ) = q := ⟨q.toNat, Int.toNat_of_nonneg (by omega)⟩
    have : Fact p.Prime := ⟨Nat.prime_iff_prime_int.mpr hpr⟩
    obtain ⟨k, u, rfl, hu⟩ := exists_unit_part (p := p) ha
    obtain ⟨k', u', rfl, hu'⟩ := exists_unit_part (p := p) ha'
    obtain ⟨l, v, rfl, hv⟩ := exists_unit_part (p := p) hb
    refine ⟨_, _, localHilbert_eq hu hv k l, localHilbert_eq hu' hv k' l, ?_⟩
    have e : (p : ℤ) ^ k * u * ((p : ℤ) ^ k' * u') = (p : ℤ) ^ (k + k') * (u * u') := by
      rw [pow_add]
      ring
    have huu : ¬ (p : ℤ) ∣ u * u' := by
      intro hd
      rcases hpr.dvd_or_dvd hd with h | h
      · exact hu h
      · exact hu' h
    rw [e, localHilbert_eq huu hv, sym_mul hu hu']
    congr 1
    generalize sym p u v (k % 2 == 1) (l % 2 == 1) = b1
    generalize sym p u' v (k' % 2 == 1) (l % 2 == 1) = b2
    revert b1 b2
    decide

/-- `3 x^2 + 5 y^2 = z^2` has no solution over the 3-adic numbers: the hypotheses of `C45_local` hold
and the code answers `1` -/
example : haveI : Fact (Nat.Prime 3) := ⟨Nat.prime_three⟩; ¬ Sol 3 3 5 := by
  haveI : Fact (Nat.Prime 3) := ⟨Nat.prime_three⟩
  intro h
  obtain ⟨k, e1, -, e2⟩ := C45_local (p := 3) (a := 3) (b := 5) (by norm_num) (by norm_num)
  have e3 : localHilbert 3 5 3 = some 1 := by decide +kernel
  rw [e2.mpr h] at e1
  have e4 : some (1 : ℤ) = some 0 := e3.symm.trans e1
  simp at e4

/-- at infinity -/
example : localHilbert (-3) (-5) 0 = some 1 ∧ localHilbert (-3) 5 0 = some 0 := by decide +kernel

/-- `(-6, 10)` and `(15, 10)` at `5`, and their product: the two symbols and the symbol of the
product -/
example : ∃ h h', localHilbert (-6) 10 5 = some h ∧ localHilbert 15 10 5 = some h' ∧
    localHilbert ((-6) * 15) 10 5 = some ((h + h') % 2) :=
  C45_mul (by norm_num) (by norm_num) (by norm_num) (Or.inr (Nat.prime_iff_prime_int.mp Nat.prime_five))

example : localHilbert (-6) 10 5 = localHilbert 10 (-6) 5 :=
  C45_symm (by norm_num) (by norm_num) (Or.inr (Nat.prime_iff_prime_int.mp Nat.prime_five))

end Eclib.Local
