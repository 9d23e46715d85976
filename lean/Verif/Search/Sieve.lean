import Verif.Search.Props

/-!
# C98: the sieve of `quartic_sieve`
-/

namespace Eclib.Search

open Forms (G)
open Marith (isqrt)
open Curve (QPoint)

/-! ## the table of squares and the flags -/

theorem getD_map_range {f : ℕ → Bool} {n i : ℕ} (h : i < n) : ((List.range n).map f).getD i false = f i := by
  simp [List.getD_eq_getElem?_getD, h]

/-- the moduli for which the table of squares is complete -/
def GoodAux (m : ℕ) : Prop := 0 < m ∧ (m % 2 = 1 ∨ m % 4 = 0)

theorem squares_spec {m : ℕ} (hm : GoodAux m) {r : ℕ} (hr : r < m) :
    (squares m).getD r false = true ↔ ∃ y : ℤ, y ^ 2 % (m : ℤ) = r := by
  obtain ⟨m0, m2⟩ := hm
  have hm' : (0 : ℤ) < m := by exact_mod_cast m0
  unfold squares
  rw [getD_map_range hr, List.any_eq_true]
  constructor
  · rintro ⟨j, -, h⟩
    rw [Arith.posmod_eq_emod _ _ hm'] at h
    exact ⟨j, by rw [sq]; exact beq_iff_eq.mp h⟩
  · rintro ⟨y, hy⟩
    have h0 := Int.emod_nonneg y hm'.ne'
    have h1 := Int.emod_lt_of_pos y hm'
    obtain ⟨k, hk⟩ : ∃ k : ℕ, y % (m : ℤ) = k := ⟨(y % (m : ℤ)).toNat, by omega⟩
    have e : ((k : ℤ) * k) % (m : ℤ) = r := by
      rw [← hk, ← Int.mul_emod, ← sq]; exact hy
    have hkm : k < m := by omega
    by_cases c1 : k < (m + 1) / 2
    · exact ⟨k, List.mem_range.mpr c1, by rw [Arith.posmod_eq_emod _ _ hm', e]; simp⟩
    by_cases c2 : m - k < (m + 1) / 2
    · refine ⟨m - k, List.mem_range.mpr c2, ?_⟩
      rw [Arith.posmod_eq_emod _ _ hm', Nat.cast_sub hkm.le,
        show ((m : ℤ) - k) * (m - k) = k * k + m * (m - 2 * k) by ring, Int.add_mul_emod_self_left, e]
      simp
    · refine ⟨0, List.mem_range.mpr (by omega), ?_⟩
      have hk2 : m = 2 * k := by omega
      obtain ⟨l, hl⟩ : ∃ l, k = 2 * l := ⟨k / 2, by omega⟩
      have : (r : ℤ) = 0 := by
        rw [← e, hk2, hl]
        push_cast
        rw [show (2 * (l : ℤ) * (2 * l)) = (2 * (2 * l)) * l by ring]
        exact Int.mul_emod_right _ _
      rw [Arith.posmod_eq_emod _ _ hm', this]
      simp

theorem red_spec {m : ℤ} (hm : 0 < m) (x y : ℤ) :
    (if x % m + y % m ≥ m then x % m + y % m - m else x % m + y % m) = (x + y) % m := by
  have h1 := Int.emod_nonneg x hm.ne'
  have h2 := Int.emod_lt_of_pos x hm
  have h3 := Int.emod_nonneg y hm.ne'
  have h4 := Int.emod_lt_of_pos y hm
  rw [Int.add_emod x y]
  split_ifs with h
  · rw [← Int.sub_emod_right (x % m + y % m) m]
    exact (Int.emod_eq_of_lt (by omega) (by omega)).symm
  · exact (Int.emod_eq_of_lt (by omega) (by omega)).symm

theorem flagLoop_spec {m : ℕ} (hm : 0 < m) (sqs : List Bool) (F0 F1 F2 F3 : ℕ → ℤ) (d4 : ℤ)
    (h0 : ∀ n, F0 (n + 1) = F0 n + F1 n) (h1 : ∀ n, F1 (n + 1) = F1 n + F2 n) (h2 : ∀ n, F2 (n + 1) = F2 n + F3 n)
    (h3 : ∀ n, F3 (n + 1) = F3 n + d4) (n k i : ℕ) (hi : i < n) :
    (flagLoop m sqs (d4 % m) n (F0 k % m) (F1 k % m) (F2 k % m) (F3 k % m)).getD i false =
      sqs.getD (F0 (k + i) % m).toNat false := by
  have hm' : (0 : ℤ) < m := by exact_mod_cast hm
  induction n generalizing k i with
  | zero => omega
  | succ n ih =>
    unfold flagLoop
    simp only
    rw [red_spec hm', red_spec hm', red_spec hm', red_spec hm', ← h0, ← h1, ← h2, ← h3]
    cases i with
    | zero => rfl
    | succ i =>
      rw [List.getD_cons_succ, ih (k + 1) i (by omega), show k + 1 + i = k + (i + 1) by omega]

/-- the flag computed for a residue says whether the value is a square modulo `aux` -/
theorem flags_spec (g : G) (w : ℤ) {m : ℕ} (hm : GoodAux m) {x : ℕ} (hx : x < m) :
    (flags g w m).getD x false = true ↔ ∃ y : ℤ, (m : ℤ) ∣ y ^ 2 - val g x w := by
  have hm' : (0 : ℤ) < m := by exact_mod_cast hm.1
  have hM : ∀ t : ℤ, Marith.posmod t m = t % m := by
    intro t
    rw [Marith.posmod_eq t m hm'.ne', abs_of_pos hm']
  have key : flags g w m = flagLoop m (squares m) (24 * g.a % m) m ((fun n : ℕ => val g n w) 0 % m)
      ((fun n : ℕ => val g (n + 1) w - val g n w) 0 % m)
      ((fun n : ℕ => val g (n + 2) w - 2 * val g (n + 1) w + val g n w) 0 % m)
      ((fun n : ℕ => val g (n + 3) w - 3 * val g (n + 2) w + 3 * val g (n + 1) w - val g n w) 0 % m) := by
    unfold flags
    simp only [hM, Arith.posmod_eq_emod _ _ hm', val]
    congr 1
    · simp [Int.mul_emod]
    · simp only [Int.emod_emod_of_dvd _ (dvd_refl _)]
      congr 1; push_cast; ring
    · refine (Int.emod_emod_of_dvd _ (dvd_refl _)).symm.trans ?_
      refine Int.ModEq.trans (b := g.a + g.b * w + g.c * w ^ 2 + g.d * w ^ 3) ?_ ?_
      · exact (Int.mod_modEq _ _).trans ((((Int.mod_modEq _ _).add (Int.mod_modEq _ _)).add (Int.mod_modEq _ _)).add (Int.mod_modEq _ _))
      · exact congrArg (· % (m : ℤ)) (by push_cast; ring)
    · refine (Int.emod_emod_of_dvd _ (dvd_refl _)).symm.trans ?_
      refine Int.ModEq.trans (b := 14 * g.a + 6 * (g.b * w) + 2 * (g.c * w ^ 2)) ?_ ?_
      · exact (Int.mod_modEq _ _).trans ((((Int.mod_modEq _ _).mul_left _).add ((Int.mod_modEq _ _).mul_left _)).add ((Int.mod_modEq _ _).mul_left _))
      · exact congrArg (· % (m : ℤ)) (by push_cast; ring)
    · refine (Int.emod_emod_of_dvd _ (dvd_refl _)).symm.trans ?_
      refine Int.ModEq.trans (b := 36 * g.a + 6 * (g.b * w)) ?_ ?_
      · exact (Int.mod_modEq _ _).trans (((Int.mod_modEq _ _).mul_left _).add ((Int.mod_modEq _ _).mul_left _))
      · exact congrArg (· % (m : ℤ)) (by push_cast; ring)
  have L := flagLoop_spec hm.1 (squares m) (fun n : ℕ => val g n w) (fun n : ℕ => val g (n + 1) w - val g n w)
    (fun n : ℕ => val g (n + 2) w - 2 * val g (n + 1) w + val g n w)
    (fun n : ℕ => val g (n + 3) w - 3 * val g (n + 2) w + 3 * val g (n + 1) w - val g n w) (24 * g.a)
    (fun n => by simp only [val]; push_cast; ring) (fun n => by simp only [val]; push_cast; ring)
    (fun n => by simp only [val]; push_cast; ring) (fun n => by simp only [val]; push_cast; ring) m 0 x hx
  simp only at L key
  rw [key, L]
  · have h0 := Int.emod_nonneg (val g x w) hm'.ne'
    have h1 := Int.emod_lt_of_pos (val g x w) hm'
    simp only [Nat.zero_add]
    rw [squares_spec hm (by omega), Int.toNat_of_nonneg h0]
    constructor
    · rintro ⟨y, hy⟩
      exact ⟨y, Int.ModEq.dvd (show val g x w ≡ y ^ 2 [ZMOD m] from hy.symm)⟩
    · rintro ⟨y, hy⟩
      exact ⟨y, ((Int.modEq_iff_dvd).mpr hy).symm⟩

/-! ## the primes excluded -/

theorem legendreBL_neg {a : ℤ} {p : ℤ} (hp : 0 < p) (ho : p % 2 = 1) (h : legendreBL a p = some (-1)) (u v : ℤ)
    (hu : IsCoprime u p) (hd : p ∣ v ^ 2 - a * u ^ 4) : False := by
  obtain ⟨q, rfl⟩ : ∃ q : ℕ, p = q := ⟨p.toNat, by omega⟩
  have hq : Odd q := Nat.odd_iff.mpr (by omega)
  unfold legendreBL at h
  rw [if_neg (by rw [Int.tmod_eq_emod_of_nonneg hp.le]; omega), Arith.Props.C05_legendre _ _ hq, Option.some.injEq,
    Int.fmod_eq_emod_of_nonneg _ hp.le, ← jacobiSym.mod_left] at h
  have e : jacobiSym (v ^ 2) q = jacobiSym (a * u ^ 4) q := by
    rw [jacobiSym.mod_left (v ^ 2), jacobiSym.mod_left (a * u ^ 4)]
    congr 1
    exact (Int.modEq_iff_dvd.mpr hd).symm
  rw [jacobiSym.mul_left, jacobiSym.pow_left, jacobiSym.pow_left, h] at e
  have hn : jacobiSym u q ≠ 0 := jacobiSym.ne_zero (Int.isCoprime_iff_gcd_eq_one.mp hu)
  have h1 : 0 < jacobiSym u q ^ 4 := by positivity
  have h2 : 0 ≤ jacobiSym v q ^ 2 := by positivity
  linarith

theorem mem_badPrimes {two : Bool} {a : ℤ} {prs : List ℤ} {p : ℤ} (h : p ∈ badPrimes two a prs) :
    (p = 2 ∧ two = false) ∨ (p ∈ prs ∧ legendreBL a p = some (-1)) := by
  have := List.mem_of_mem_take h
  rw [List.mem_append, List.mem_filter] at this
  rcases this with h | ⟨h1, h2⟩
  · cases two
    · exact Or.inl ⟨by simpa using h, rfl⟩
    · simp at h
  · exact Or.inr ⟨h1, beq_iff_eq.mp h2⟩

theorem sq_mod8 (v : ℤ) : v ^ 2 % 8 = 0 ∨ v ^ 2 % 8 = 1 ∨ v ^ 2 % 8 = 4 := by
  have h : v % 8 = 0 ∨ v % 8 = 1 ∨ v % 8 = 2 ∨ v % 8 = 3 ∨ v % 8 = 4 ∨ v % 8 = 5 ∨ v % 8 = 6 ∨ v % 8 = 7 := by omega
  rcases h with h | h | h | h | h | h | h | h <;> simp [sq, Int.mul_emod, h]

theorem odd_sq_mod8 {u : ℤ} (hu : u % 2 = 1) : u ^ 2 ≡ 1 [ZMOD 8] := by
  have h : u % 8 = 1 ∨ u % 8 = 3 ∨ u % 8 = 5 ∨ u % 8 = 7 := by omega
  unfold Int.ModEq
  rcases h with h | h | h | h <;> simp [sq, Int.mul_emod, h]

/-- the values modulo 8 when the second variable is even -/
theorem val_mod8 (a b c d e : ℤ) {u w : ℤ} (hu : u % 2 = 1) (hw : w % 2 = 0) :
    ∃ z0 ∈ [0, 1, 2, 3], ∃ x ∈ [1, 3, 5, 7],
      a * u ^ 4 + b * u ^ 3 * w + c * u ^ 2 * w ^ 2 + d * u * w ^ 3 + e * w ^ 4 ≡
        a + 4 * c * z0 * z0 + 2 * b * x * z0 [ZMOD 8] := by
  obtain ⟨z, rfl⟩ : ∃ z, w = 2 * z := ⟨w / 2, by omega⟩
  refine ⟨z % 4, ?_, u % 8, ?_, ?_⟩
  · have h1 := Int.emod_nonneg z (show (4 : ℤ) ≠ 0 by norm_num)
    have h2 := Int.emod_lt_of_pos z (show (0 : ℤ) < 4 by norm_num)
    interval_cases z % 4 <;> simp
  · have h : u % 8 = 1 ∨ u % 8 = 3 ∨ u % 8 = 5 ∨ u % 8 = 7 := by omega
    rcases h with h | h | h | h <;> simp [h]
  · have k := odd_sq_mod8 hu
    have hz : 2 * z ≡ 2 * (z % 4) [ZMOD 8] := by unfold Int.ModEq; omega
    have hx : u ≡ u % 8 [ZMOD 8] := (Int.mod_modEq u 8).symm
    have h1 : a * (u ^ 2) ^ 2 ≡ a * 1 ^ 2 [ZMOD 8] := (k.pow 2).mul_left a
    have h2 : b * (u ^ 2 * u * (2 * z)) ≡ b * (1 * (u % 8) * (2 * (z % 4))) [ZMOD 8] := ((k.mul hx).mul hz).mul_left b
    have h3 : c * (u ^ 2 * (2 * z) ^ 2) ≡ c * (1 * (2 * (z % 4)) ^ 2) [ZMOD 8] := (k.mul (hz.pow 2)).mul_left c
    have h4 : 8 * (d * u * z ^ 3 + 2 * e * z ^ 4) ≡ 0 [ZMOD 8] := by simp [Int.ModEq]
    have := ((h1.add h2).add h3).add h4
    have e1 : a * u ^ 4 + b * u ^ 3 * (2 * z) + c * u ^ 2 * (2 * z) ^ 2 + d * u * (2 * z) ^ 3 + e * (2 * z) ^ 4 =
      a * (u ^ 2) ^ 2 + b * (u ^ 2 * u * (2 * z)) + c * (u ^ 2 * (2 * z) ^ 2) + 8 * (d * u * z ^ 3 + 2 * e * z ^ 4) := by
      ring
    have e2 : a + 4 * c * (z % 4) * (z % 4) + 2 * b * (u % 8) * (z % 4) = a * 1 ^ 2 +
      b * (1 * (u % 8) * (2 * (z % 4))) + c * (1 * (2 * (z % 4)) ^ 2) + 0 := by ring
    rw [e1, e2]
    exact this

theorem mod_cong (a : ℤ) : Marith.mod a 8 ≡ a [ZMOD 8] := by
  have := (Marith.Props.C04_mod_big a 8 (by norm_num)).1
  exact (Int.modEq_iff_dvd.mpr this).symm

/-- 2 is excluded from the denominators only if no denominator of a point is even -/
theorem twoOkW_spec {g : G} (h : twoOkW g = false) {u v w : ℤ} (hp : v ^ 2 = val g u w) (hu : u % 2 = 1) : w % 2 = 1 := by
  by_contra hw
  obtain ⟨z0, hz, x, hx, hv⟩ := val_mod8 g.a g.b g.c g.d g.e hu (by omega : w % 2 = 0)
  have h' : ¬ twoOkW g = true := by rw [h]; simp
  apply h'
  unfold twoOkW
  simp only
  refine List.any_eq_true.mpr ⟨z0, hz, List.any_eq_true.mpr ⟨x, hx, ?_⟩⟩
  have k : (Marith.mod g.a 8 + Marith.mod (4 * g.c) 8 * z0 * z0).tmod 8 + Marith.mod (2 * g.b) 8 * x * z0 ≡
      g.a + 4 * g.c * z0 * z0 + 2 * g.b * x * z0 [ZMOD 8] := by
    refine Int.ModEq.add ?_ (((mod_cong _).mul_right x).mul_right z0)
    refine Int.ModEq.trans ?_ ((mod_cong g.a).add (((mod_cong (4 * g.c)).mul_right z0).mul_right z0))
    have := Int.tmod_add_mul_tdiv (Marith.mod g.a 8 + Marith.mod (4 * g.c) 8 * z0 * z0) 8
    unfold Int.ModEq
    omega
  obtain ⟨m1, m2, m3⟩ := Arith.Props.C04_mod ((Marith.mod g.a 8 + Marith.mod (4 * g.c) 8 * z0 * z0).tmod 8 +
    Marith.mod (2 * g.b) 8 * x * z0) 8 (by norm_num)
  generalize Arith.mod _ 8 = tt at m1 m2 m3 ⊢
  have k2 : tt ≡ v ^ 2 [ZMOD 8] := by
    rw [hp]
    exact ((Int.modEq_iff_dvd.mpr m1).symm.trans k).trans hv.symm
  have := sq_mod8 v
  unfold Int.ModEq at k2
  norm_num at m2 m3
  have : tt = 0 ∨ tt = 1 ∨ tt = 4 := by omega
  rcases this with rfl | rfl | rfl <;> rfl

/-- the test for the numerators is right when the residues of `e` modulo 8 and `2d` modulo 8 computed are not negative -/
theorem twoOkU_spec {g : G} (he : g.e % 8 ≤ 4) (hd : g.d % 4 ≠ 3) (h : twoOkU g = false) {u v w : ℤ}
    (hp : v ^ 2 = val g u w) (hw : w % 2 = 1) : u % 2 = 1 := by
  by_contra hu
  obtain ⟨z0, hz, x, hx, hv⟩ := val_mod8 g.e g.d g.c g.b g.a hw (by omega : u % 2 = 0)
  have h' : ¬ twoOkU g = true := by rw [h]; simp
  apply h'
  unfold twoOkU
  simp only
  refine List.any_eq_true.mpr ⟨z0, hz, List.any_eq_true.mpr ⟨x, hx, ?_⟩⟩
  have c1 := mod_cong g.e
  have c2 := mod_cong (2 * g.d)
  have c3 := mod_cong (4 * g.c)
  have r1 := (Marith.Props.C04_mod_big g.e 8 (by norm_num)).2
  have r2 := (Marith.Props.C04_mod_big (2 * g.d) 8 (by norm_num)).2
  have r3 := (Marith.Props.C04_mod_big (4 * g.c) 8 (by norm_num)).2
  norm_num at r1 r2 r3
  generalize Marith.mod g.e 8 = E at c1 r1 ⊢
  generalize Marith.mod (2 * g.d) 8 = D at c2 r2 ⊢
  generalize Marith.mod (4 * g.c) 8 = C at c3 r3 ⊢
  have hE : 0 ≤ E := by unfold Int.ModEq at c1; omega
  have hD : 0 ≤ D := by unfold Int.ModEq at c2; omega
  have hC : 0 ≤ C := by unfold Int.ModEq at c3; omega
  have hz0 : 0 ≤ z0 := by simp at hz; omega
  have hx0 : 0 ≤ x := by simp at hx; omega
  have n1 : 0 ≤ E + C * z0 * z0 := by positivity
  have n2 : 0 ≤ (E + C * z0 * z0) % 8 + D * x * z0 := by
    have := Int.emod_nonneg (E + C * z0 * z0) (show (8 : ℤ) ≠ 0 by norm_num)
    positivity
  have k : v ^ 2 ≡ E + C * z0 * z0 + D * x * z0 [ZMOD 8] := by
    have e : v ^ 2 = g.e * w ^ 4 + g.d * w ^ 3 * u + g.c * w ^ 2 * u ^ 2 + g.b * w * u ^ 3 + g.a * u ^ 4 := by
      rw [hp]; simp only [val]; ring
    rw [e]
    exact hv.trans ((c1.symm.add ((c3.symm.mul_right z0).mul_right z0)).add ((c2.symm.mul_right x).mul_right z0))
  rw [Int.tmod_eq_emod_of_nonneg n1, Int.tmod_eq_emod_of_nonneg n2]
  generalize C * z0 * z0 = A at k n1 n2 ⊢
  generalize D * x * z0 = B at k n2 ⊢
  have := sq_mod8 v
  unfold Int.ModEq at k
  have : ((E + A) % 8 + B) % 8 = 0 ∨ ((E + A) % 8 + B) % 8 = 1 ∨ ((E + A) % 8 + B) % 8 = 4 := by omega
  rcases this with h | h | h <;> rw [h] <;> rfl

theorem wflag_spec {w : ℕ} {u : ℤ} (hw : 0 < w) (hc : IsCoprime u (w : ℤ)) : (wflag w).getD (u % (w : ℤ)).toNat false = true := by
  have hw' : (0 : ℤ) < w := by exact_mod_cast hw
  have h0 := Int.emod_nonneg u hw'.ne'
  have h1 := Int.emod_lt_of_pos u hw'
  obtain ⟨k, hk⟩ : ∃ k : ℕ, u % (w : ℤ) = k := ⟨(u % (w : ℤ)).toNat, by omega⟩
  have hkw : k < w := by omega
  have hg : Nat.gcd k w = 1 := by
    have h2 : IsCoprime (u % (w : ℤ)) (w : ℤ) := by
      have := hc.add_mul_left_left (-(u / w))
      rwa [show u + (w : ℤ) * -(u / w) = u % w by have := Int.emod_add_mul_ediv u w; linarith] at this
    rw [hk] at h2
    exact Nat.isCoprime_iff_coprime.mp h2
  unfold wflag
  rw [hk, Int.toNat_natCast, getD_map_range hkw]
  split_ifs with c1 c2
  · subst c1
    simpa using hg
  · simpa using hg
  · rw [decide_eq_true_eq]
    have : Nat.Coprime k w := hg
    have h4 : Nat.Coprime (w - k) k := (Nat.coprime_sub_self_left hkw.le).mpr this.symm
    have h5 : Nat.Coprime (w - k) (w - k + k) := by simpa [Nat.coprime_self_add_right] using h4
    rwa [Nat.sub_add_cancel hkw.le] at h5

/-! ## the loops -/

theorem mem_stepsN {step : ℤ} {n : ℕ} {first u : ℤ} : u ∈ stepsN step n first ↔ ∃ i < n, u = first + step * i := by
  induction n generalizing first with
  | zero => simp [stepsN]
  | succ n ih =>
    simp only [stepsN, List.mem_cons, ih]
    constructor
    · rintro (rfl | ⟨i, hi, rfl⟩)
      · exact ⟨0, by omega, by simp⟩
      · exact ⟨i + 1, by omega, by push_cast; ring⟩
    · rintro ⟨i, hi, rfl⟩
      cases i with
      | zero => left; simp
      | succ i => exact Or.inr ⟨i, by omega, by push_cast; ring⟩

/-- a point found is a point of the quartic in the region searched -/
def Found (g : G) (bd : ℕ → ℤ × ℤ) (ulim : ℕ) (st : St) : Prop :=
  0 < st.n → QPoint g st.pt.1 st.pt.2.1 st.pt.2.2 ∧
    ∃ w : ℕ, st.pt.2.2 = w ∧ 1 ≤ w ∧ w ≤ ulim ∧ (bd w).1 ≤ st.pt.1 ∧ st.pt.1 ≤ (bd w).2

/-- `u` is not rejected by the code -/
structure Pass (g : G) (S : Sv) (xg : List (List Bool)) (w : ℕ) (sv gt : Bool) (u : ℤ) : Prop where
  sq : ∃ v : ℤ, v ^ 2 = val g u w
  up : ∀ p ∈ S.uprimes, u % p ≠ 0
  fl : sv = true → gt = false →
    (List.zipWith (fun (l : List Bool) (r : ℤ) => l.getD r.toNat false) xg (S.auxs.map fun m : ℕ => u % (m : ℤ))).all id = true
  co : gt = true → IsCoprime u (w : ℤ)

/-- the residues of `u0` are right -/
structure Res (S : Sv) (w : ℕ) (sv gt : Bool) (u0 : ℤ) (st : St) : Prop where
  um : sv = true → st.umods = S.auxs.map fun m : ℕ => u0 % (m : ℤ)
  uw : gt = true → st.umodw = u0 % (w : ℤ)

theorem zip_res (auxs : List ℕ) (u0 s : ℤ) :
    List.zipWith (fun (m : ℕ) r => (r + s) % (m : ℤ)) auxs (auxs.map fun m : ℕ => u0 % (m : ℤ)) =
      auxs.map fun m : ℕ => (u0 + s) % (m : ℤ) := by
  induction auxs with
  | nil => rfl
  | cons m l ih => simp [ih]

theorem uStep_spec (g : G) (S : Sv) (xg : List (List Bool)) {w : ℕ} (hw : 0 < w) (sv gt : Bool) (ustep : ℤ) (maxn : ℕ)
    {st : St} {u : ℤ} (hn : st.n < maxn) (hr : Res S w sv gt (u - ustep) st) (bd : ℕ → ℤ × ℤ) (ulim : ℕ)
    (hf : Found g bd ulim st) (hb : w ≤ ulim ∧ (bd w).1 ≤ u ∧ u ≤ (bd w).2) :
    Res S w sv gt u (uStep g S xg w sv gt ustep maxn st u) ∧ st.n ≤ (uStep g S xg w sv gt ustep maxn st u).n ∧
    Found g bd ulim (uStep g S xg w sv gt ustep maxn st u) ∧
    (Pass g S xg w sv gt u → 0 < (uStep g S xg w sv gt ustep maxn st u).n) := by
  unfold uStep
  rw [if_pos hn]
  simp only
  have e1 : (if sv = true then List.zipWith (fun (m : ℕ) r => (r + ustep) % (m : ℤ)) S.auxs st.umods else st.umods) =
      if sv = true then S.auxs.map fun m : ℕ => u % (m : ℤ) else st.umods := by
    by_cases h : sv = true
    · rw [if_pos h, if_pos h, hr.um h, zip_res, sub_add_cancel]
    · rw [if_neg h, if_neg h]
  have e2 : (if gt = true then (st.umodw + ustep) % (w : ℤ) else st.umodw) = if gt = true then u % (w : ℤ) else st.umodw := by
    by_cases h : gt = true
    · rw [if_pos h, if_pos h, hr.uw h, Int.emod_add_emod, sub_add_cancel]
    · rw [if_neg h, if_neg h]
  rw [e1, e2]
  have R : ∀ n pt, Res S w sv gt u ⟨n, pt, if sv = true then S.auxs.map fun m : ℕ => u % (m : ℤ) else st.umods,
      if gt = true then u % (w : ℤ) else st.umodw⟩ := fun n pt =>
    ⟨fun h => by dsimp only; rw [if_pos h], fun h => by dsimp only; rw [if_pos h]⟩
  have ef : (((g.a * u + g.b * w) * u + g.c * (w : ℤ) ^ 2) * u + g.d * (w : ℤ) ^ 3) * u + g.e * (w : ℤ) ^ 4 = val g u w := by
    simp only [val]; ring
  rw [ef]
  obtain ⟨ok, hok⟩ : ∃ ok, ((if gt = true then (wflag w).getD (if gt = true then u % (w : ℤ) else st.umodw).toNat false
    else if sv = true then (List.zipWith (fun (l : List Bool) (r : ℤ) => l.getD r.toNat false) xg
      (if sv = true then S.auxs.map fun m : ℕ => u % (m : ℤ) else st.umods)).all id else true) &&
    S.uprimes.all fun p => u % p != 0) = ok := ⟨_, rfl⟩
  rw [hok]
  by_cases c1 : ok = true
  · rw [if_pos c1]
    by_cases c2 : (isqrt (val g u w)).1 = true
    · rw [if_pos c2]
      refine ⟨R _ _, by simp, fun _ => ⟨⟨?_, ?_⟩, w, rfl, hw, hb⟩, fun _ => Nat.succ_pos _⟩
      · linear_combination -(Marith.isqrt_sound _ c2)
      · rintro ⟨-, h0⟩
        dsimp only at h0
        omega
    · rw [if_neg c2]
      refine ⟨R _ _, le_refl _, fun h => hf h, fun h => ?_⟩
      obtain ⟨v, hv⟩ := h.sq
      exact absurd (isqrt_of_sq hv) c2
  · rw [if_neg c1]
    refine ⟨R _ _, le_refl _, fun h => hf h, fun h => absurd ?_ c1⟩
    rw [← hok, Bool.and_eq_true, List.all_eq_true]
    refine ⟨?_, fun p hp => by simpa using h.up p hp⟩
    by_cases hg : gt = true
    · rw [if_pos hg, if_pos hg]
      exact wflag_spec hw (h.co hg)
    · rw [if_neg hg]
      by_cases hs : sv = true
      · rw [if_pos hs, if_pos hs]
        exact h.fl hs (by simpa using hg)
      · rw [if_neg hs]

theorem uFold_const (g : G) (S : Sv) (xg : List (List Bool)) (w : ℕ) (sv gt : Bool) (ustep : ℤ) (maxn : ℕ) {st : St}
    (hn : ¬ st.n < maxn) (l : List ℤ) : l.foldl (uStep g S xg w sv gt ustep maxn) st = st := by
  induction l with
  | nil => rfl
  | cons u l ih =>
    rw [List.foldl_cons]
    have : uStep g S xg w sv gt ustep maxn st u = st := by unfold uStep; rw [if_neg hn]
    rw [this, ih]

theorem uFold_spec (g : G) (S : Sv) (xg : List (List Bool)) {w : ℕ} (hw : 0 < w) (sv gt : Bool) (ustep : ℤ) {maxn : ℕ}
    (hmax : 0 < maxn) (bd : ℕ → ℤ × ℤ) (ulim : ℕ) (hwl : w ≤ ulim) (k : ℕ) (u0 : ℤ)
    (hb : ∀ u ∈ stepsN ustep k u0, (bd w).1 ≤ u ∧ u ≤ (bd w).2) {st : St}
    (hr : Res S w sv gt (u0 - ustep) st) (hf : Found g bd ulim st) :
    st.n ≤ ((stepsN ustep k u0).foldl (uStep g S xg w sv gt ustep maxn) st).n ∧
    Found g bd ulim ((stepsN ustep k u0).foldl (uStep g S xg w sv gt ustep maxn) st) ∧
    (∀ u ∈ stepsN ustep k u0, Pass g S xg w sv gt u →
      0 < ((stepsN ustep k u0).foldl (uStep g S xg w sv gt ustep maxn) st).n) := by
  induction k generalizing u0 st with
  | zero => exact ⟨le_refl _, hf, by simp [stepsN]⟩
  | succ k ih =>
    by_cases hn : st.n < maxn
    · simp only [stepsN, List.foldl_cons]
      obtain ⟨a1, a2, a3, a4⟩ := uStep_spec g S xg hw sv gt ustep maxn hn hr bd ulim hf
        ⟨hwl, hb u0 (by simp [stepsN])⟩
      obtain ⟨b1, b2, b3⟩ := ih (u0 + ustep) (fun u hu => hb u (by simp [stepsN, hu])) (by rw [add_sub_cancel_right]; exact a1) a3
      refine ⟨a2.trans b1, b2, fun u hu hp => ?_⟩
      rcases List.mem_cons.mp hu with rfl | hu
      · exact lt_of_lt_of_le (a4 hp) b1
      · exact b3 u hu hp
    · rw [uFold_const g S xg w sv gt ustep maxn hn]
      exact ⟨le_refl _, hf, fun _ _ _ => by omega⟩

/-- the primes in the lists do not divide the coordinates of points -/
def PrimesOk (g : G) (S : Sv) : Prop :=
  ∀ u v w : ℤ, v ^ 2 = val g u w → IsCoprime u w → (∀ p ∈ S.uprimes, u % p ≠ 0) ∧ ∀ p ∈ S.wprimes, w % p ≠ 0

/-- the sieve is not used without the table of gcds -/
def RangeOk (bd : ℕ → ℤ × ℤ) (w : ℕ) : Prop :=
  (bd w).2 - (bd w).1 ≤ 10 ∨ (w < 10000 ∧ (w : ℤ) / 2 + 2 < (bd w).2 - (bd w).1)

theorem flags_pass {g : G} {w : ℤ} {auxs : List ℕ} (h : ∀ m ∈ auxs, GoodAux m) {u v : ℤ} (hv : v ^ 2 = val g u w) :
    (List.zipWith (fun (l : List Bool) (r : ℤ) => l.getD r.toNat false) (xgood true g w auxs)
      (auxs.map fun m : ℕ => u % (m : ℤ))).all id = true := by
  unfold xgood
  induction auxs with
  | nil => rfl
  | cons m l ih =>
    simp only [List.map_cons, List.zipWith_cons_cons, List.all_cons, Bool.and_eq_true, id, if_true]
    refine ⟨?_, by simpa only [if_true] using ih fun m hm => h m (by simp [hm])⟩
    have hm := h m (by simp)
    have hm' : (0 : ℤ) < m := by exact_mod_cast hm.1
    have h0 := Int.emod_nonneg u hm'.ne'
    have h1 := Int.emod_lt_of_pos u hm'
    rw [flags_spec g w hm (by omega), Int.toNat_of_nonneg h0]
    refine ⟨v, Int.ModEq.dvd ?_⟩
    rw [hv]
    have k : u % (m : ℤ) ≡ u [ZMOD m] := Int.mod_modEq _ _
    exact (((((k.pow 4).mul_left _).add (((k.pow 3).mul_left _).mul_right _)).add (((k.pow 2).mul_left _).mul_right _)).add
      ((k.mul_left _).mul_right _)).add (Int.ModEq.refl _)

theorem wStep_spec {stored : Bool} {g : G} {S : Sv} (hP : PrimesOk g S) (hS : stored = true → ∀ m ∈ S.auxs, GoodAux m)
    (haux : ∀ m ∈ S.auxs, 0 < m) (bd : ℕ → ℤ × ℤ) (ulim : ℕ) {maxn : ℕ} (hmax : 0 < maxn) {w : ℕ} (hw : 0 < w)
    (hwl : w ≤ ulim) {st : St} (hf : Found g bd ulim st) :
    st.n ≤ (wStep stored g S bd maxn st w).n ∧ Found g bd ulim (wStep stored g S bd maxn st w) ∧
    ((stored = true ∨ RangeOk bd w) → ∀ u v : ℤ, v ^ 2 = val g u w → IsCoprime u (w : ℤ) → (bd w).1 ≤ u → u ≤ (bd w).2 →
      0 < (wStep stored g S bd maxn st w).n) := by
  have hw' : (0 : ℤ) < w := by exact_mod_cast hw
  unfold wStep
  by_cases hn : st.n < maxn
  swap
  · rw [if_neg hn]
    exact ⟨le_refl _, hf, fun _ _ _ _ _ _ _ => by omega⟩
  rw [if_pos hn]
  simp only
  obtain ⟨oddU, hodd⟩ : ∃ b, (S.uprimes.head? == some 2) = b := ⟨_, rfl⟩
  rw [hodd]
  obtain ⟨ustep, hus⟩ : ∃ s : ℤ, (if oddU = true then 2 else 1) = s := ⟨_, rfl⟩
  obtain ⟨first, hfi⟩ : ∃ s : ℤ, (if (oddU && (bd w).1 % 2 == 0) = true then (bd w).1 + 1 else (bd w).1) = s := ⟨_, rfl⟩
  obtain ⟨last, hla⟩ : ∃ s : ℤ, (if (oddU && (bd w).2 % 2 == 0) = true then (bd w).2 - 1 else (bd w).2) = s := ⟨_, rfl⟩
  rw [hus, hfi, hla]
  -- the values of u examined
  have hu1 : (bd w).1 ≤ first ∧ first ≤ (bd w).1 + 1 ∧ (oddU = true → first % 2 = 1) := by
    rw [← hfi]
    cases oddU
    · simp
    · simp only [Bool.true_and, beq_iff_eq]
      split_ifs <;> omega
  have hu2 : last ≤ (bd w).2 ∧ (bd w).2 - 1 ≤ last ∧ (oddU = true → last % 2 = 1) := by
    rw [← hla]
    cases oddU
    · simp
    · simp only [Bool.true_and, beq_iff_eq]
      split_ifs <;> omega
  have hst : (oddU = true ∧ ustep = 2) ∨ (oddU = false ∧ ustep = 1) := by
    cases oddU
    · right; exact ⟨rfl, by rw [← hus]; rfl⟩
    · left; exact ⟨rfl, by rw [← hus]; rfl⟩
  have hspos : 0 < ustep := by omega
  have hin : ∀ u ∈ steps first last ustep, (bd w).1 ≤ u ∧ u ≤ (bd w).2 := by
    intro u hu
    obtain ⟨i, hi, rfl⟩ := mem_stepsN.mp hu
    have h1 : ustep * ((last - first) / ustep) ≤ last - first := Int.mul_ediv_self_le hspos.ne'
    have h2 : (i : ℤ) ≤ (last - first) / ustep := by omega
    have h3 : ustep * (i : ℤ) ≤ ustep * ((last - first) / ustep) := mul_le_mul_of_nonneg_left h2 hspos.le
    have h4 : 0 ≤ ustep * (i : ℤ) := by positivity
    omega
  have hmem : ∀ u v : ℤ, v ^ 2 = val g u w → IsCoprime u (w : ℤ) → (bd w).1 ≤ u → u ≤ (bd w).2 →
      u ∈ steps first last ustep ∧ first ≤ last := by
    intro u v hv hc h1 h2
    have hfl : first ≤ u ∧ u ≤ last ∧ ustep ∣ u - first := by
      rcases hst with ⟨ho, hs⟩ | ⟨ho, hs⟩
      · have h2m : (2 : ℤ) ∈ S.uprimes := by
          rw [ho, beq_iff_eq] at hodd
          exact List.mem_of_mem_head? hodd
        have := (hP u v w hv hc).1 2 h2m
        have k1 := hu1.2.2 ho
        have k2 := hu2.2.2 ho
        rw [← hfi, ← hla, ho]
        simp only [Bool.true_and, beq_iff_eq]
        rw [ho] at hfi hla
        simp only [Bool.true_and, beq_iff_eq] at hfi hla
        rw [hfi, hla, hs]
        refine ⟨?_, ?_, by omega⟩
        · split_ifs at hfi <;> omega
        · split_ifs at hla <;> omega
      · rw [ho] at hfi hla
        simp only [Bool.false_and, Bool.false_eq_true, if_false] at hfi hla
        exact ⟨by omega, by omega, by rw [hs]; exact one_dvd _⟩
    obtain ⟨h3, h4, k, hk⟩ := hfl
    have hk0 : 0 ≤ k := by
      by_contra hneg
      have : ustep * k < 0 := mul_neg_of_pos_of_neg hspos (by omega)
      omega
    have hk1 : k ≤ (last - first) / ustep := by
      rw [Int.le_ediv_iff_mul_le hspos]
      have := mul_comm k ustep
      omega
    exact ⟨mem_stepsN.mpr ⟨k.toNat, by omega, by rw [Int.toNat_of_nonneg hk0]; omega⟩, by omega⟩
  by_cases c1 : first > last
  · rw [if_pos c1]
    exact ⟨le_refl _, hf, fun _ u v h1 h2 h3 h4 => absurd (hmem u v h1 h2 h3 h4).2 (by omega)⟩
  rw [if_neg c1]
  by_cases c2 : S.wprimes.all (fun p => (w : ℤ) % p != 0) = true
  swap
  · rw [if_neg c2]
    refine ⟨le_refl _, hf, fun _ u v h1 h2 h3 h4 => absurd ?_ c2⟩
    exact List.all_eq_true.mpr fun p hp => by simpa using (hP u v w h1 h2).2 p hp
  rw [if_pos c2]
  obtain ⟨sv, hsv⟩ : ∃ b, decide (last - first > 10) = b := ⟨_, rfl⟩
  rw [hsv]
  obtain ⟨gt, hgt⟩ : ∃ b, (sv && decide (w < 10000) && decide (last - first > ((w / 2 : ℕ) : ℤ))) = b := ⟨_, rfl⟩
  rw [hgt]
  have hres : Res S w sv gt (first - ustep) ⟨st.n, st.pt,
      if sv = true then S.auxs.map fun m : ℕ => Arith.posmod (first - ustep) m else st.umods,
      if gt = true then Arith.posmod (first - ustep) w else 0⟩ := by
    refine ⟨fun h => ?_, fun h => ?_⟩
    · dsimp only
      rw [if_pos h]
      exact List.map_congr_left fun m hm => Arith.posmod_eq_emod _ _ (by exact_mod_cast haux m hm)
    · dsimp only
      rw [if_pos h]
      exact Arith.posmod_eq_emod _ _ hw'
  obtain ⟨b1, b2, b3⟩ := uFold_spec g S (xgood stored g w S.auxs) hw sv gt ustep hmax bd ulim hwl _ first hin hres
    (fun h => hf h)
  refine ⟨b1, b2, fun hor u v h1 h2 h3 h4 => b3 u (hmem u v h1 h2 h3 h4).1 ⟨⟨v, h1⟩, (hP u v w h1 h2).1, fun k1 k2 => ?_,
    fun _ => h2⟩⟩
  rcases hor with rfl | hr
  · exact flags_pass (hS rfl) h1
  · exfalso
    rw [k1, decide_eq_true_eq] at hsv
    rw [k2, k1, Bool.true_and] at hgt
    simp only [Bool.and_eq_false_iff, decide_eq_false_iff_not] at hgt
    rcases hr with hr | ⟨r1, r2⟩
    · omega
    · rcases hgt with h | h
      · omega
      · push_cast at h
        omega

theorem range_spec {stored : Bool} {g : G} {S : Sv} (hP : PrimesOk g S) (hS : stored = true → ∀ m ∈ S.auxs, GoodAux m)
    (haux : ∀ m ∈ S.auxs, 0 < m) (bd : ℕ → ℤ × ℤ) (ulim : ℕ) {maxn : ℕ} (hmax : 0 < maxn) (ws : List ℕ)
    (hws : ∀ w ∈ ws, 0 < w ∧ w ≤ ulim) {st : St} (hf : Found g bd ulim st) :
    st.n ≤ (ws.foldl (wStep stored g S bd maxn) st).n ∧ Found g bd ulim (ws.foldl (wStep stored g S bd maxn) st) ∧
    (∀ w ∈ ws, (stored = true ∨ RangeOk bd w) → ∀ u v : ℤ, v ^ 2 = val g u w → IsCoprime u (w : ℤ) → (bd w).1 ≤ u →
      u ≤ (bd w).2 → 0 < (ws.foldl (wStep stored g S bd maxn) st).n) := by
  induction ws generalizing st with
  | nil => exact ⟨le_refl _, hf, by simp⟩
  | cons w ws ih =>
    rw [List.foldl_cons]
    obtain ⟨a1, a2, a3⟩ := wStep_spec hP hS haux bd ulim hmax (hws w (by simp)).1 (hws w (by simp)).2 hf
    obtain ⟨b1, b2, b3⟩ := ih (fun w hw => hws w (by simp [hw])) a2
    refine ⟨a1.trans b1, b2, fun w' hw' ho u v h1 h2 h3 h4 => ?_⟩
    rcases List.mem_cons.mp hw' with rfl | hw'
    · exact lt_of_lt_of_le (a3 ho u v h1 h2 h3 h4) b1
    · exact b3 w' hw' ho u v h1 h2 h3 h4

theorem mkSieve_ok {g : G} {prs : List ℤ} (hprs : ∀ p ∈ prs, 2 < p ∧ Prime p) (he : g.e % 8 ≤ 4) (hd : g.d % 4 ≠ 3) (opt : ℕ) :
    PrimesOk g (mkSieve g prs opt) := by
  intro u v w hv hc
  have hodd : ∀ p ∈ prs, p % 2 = 1 := by
    intro p hp
    obtain ⟨h2, hpp⟩ := hprs p hp
    rcases Int.emod_two_eq_zero_or_one p with h | h
    · exfalso
      have hd2 : (2 : ℤ) ∣ p := Int.dvd_of_emod_eq_zero h
      rcases Int.associated_iff.mp (Int.prime_two.associated_of_dvd hpp hd2) with h | h <;> omega
    · exact h
  have hcop : ∀ {x y p : ℤ}, IsCoprime x y → p ∈ prs → p ∣ y → IsCoprime x p := fun h hp hd => h.of_isCoprime_of_dvd_right hd
  have heo : ¬ (u % 2 = 0 ∧ w % 2 = 0) := by
    rintro ⟨h1, h2⟩
    have := hc.isUnit_of_dvd' (Int.dvd_of_emod_eq_zero h1) (Int.dvd_of_emod_eq_zero h2)
    exact Int.prime_two.not_isUnit this
  unfold mkSieve
  split_ifs with h
  · simp
  · simp only
    constructor
    · intro p hp hm
      have hdu := Int.dvd_of_emod_eq_zero hm
      rcases mem_badPrimes hp with ⟨rfl, h2⟩ | ⟨h1, h2⟩
      · have := twoOkU_spec he hd h2 hv (by omega)
        omega
      · refine legendreBL_neg (by have := hprs p h1; omega) (hodd p h1) h2 w v (hcop hc.symm h1 hdu) ?_
        obtain ⟨t, rfl⟩ := hdu
        rw [hv]
        exact ⟨g.a * p ^ 3 * t ^ 4 + g.b * p ^ 2 * t ^ 3 * w + g.c * p * t ^ 2 * w ^ 2 + g.d * t * w ^ 3, by
          simp only [val]; ring⟩
    · intro p hp hm
      have hdw := Int.dvd_of_emod_eq_zero hm
      rcases mem_badPrimes hp with ⟨rfl, h2⟩ | ⟨h1, h2⟩
      · have := twoOkW_spec h2 hv (by omega)
        omega
      · refine legendreBL_neg (by have := hprs p h1; omega) (hodd p h1) h2 u v (hcop hc h1 hdw) ?_
        obtain ⟨t, rfl⟩ := hdw
        rw [hv]
        exact ⟨g.e * p ^ 3 * t ^ 4 + g.d * p ^ 2 * t ^ 3 * u + g.c * p * t ^ 2 * u ^ 2 + g.b * t * u ^ 3, by
          simp only [val]; ring⟩

theorem auxs_good (g : G) (prs : List ℤ) (opt : ℕ) : ∀ m ∈ (mkSieve g prs opt).auxs, GoodAux m := by
  have : (mkSieve g prs opt).auxs = auxList opt := by unfold mkSieve; split_ifs <;> rfl
  rw [this]
  have h : ∀ l ∈ [[3, 5, 7, 11, 13, 17, 19, 23, 29, 31], [5184, 5929, 4225], [32, 9, 25, 49, 11, 13, 17, 19, 23]],
      ∀ m ∈ l, 0 < m ∧ (m % 2 = 1 ∨ m % 4 = 0) := by decide
  unfold auxList
  split_ifs
  · exact h _ (by simp)
  · exact h _ (by simp)
  · exact h _ (by simp)

theorem mem_wList {S : Sv} {ulim w : ℕ} : w ∈ wList S ulim ↔ (0 < w ∧ w ≤ ulim) ∧ (S.wprimes.head? = some 2 → w % 2 = 1) := by
  unfold wList
  rw [List.mem_filter, List.mem_map]
  simp only [List.mem_range, Bool.or_eq_true, Bool.not_eq_true', beq_eq_false_iff_ne, beq_iff_eq]
  constructor
  · rintro ⟨⟨i, hi, rfl⟩, h⟩
    exact ⟨⟨by omega, by omega⟩, fun h2 => h.resolve_left (fun h3 => h3 h2)⟩
  · rintro ⟨⟨h1, h2⟩, h3⟩
    refine ⟨⟨w - 1, by omega, by omega⟩, ?_⟩
    by_cases h : S.wprimes.head? = some 2
    · exact Or.inr (h3 h)
    · exact Or.inl h

theorem search_spec {stored : Bool} {g : G} {S : Sv} (hP : PrimesOk g S) (hS : ∀ m ∈ S.auxs, GoodAux m) (bd : ℕ → ℤ × ℤ)
    (ulim : ℕ) {maxn : ℕ} (hmax : 0 < maxn) (st : St) (hst : st.n = 0) :
    (0 < (searchRange stored g S bd ulim maxn st).n →
      QPoint g (searchRange stored g S bd ulim maxn st).pt.1 (searchRange stored g S bd ulim maxn st).pt.2.1
        (searchRange stored g S bd ulim maxn st).pt.2.2) ∧
    ((searchRange stored g S bd ulim maxn st).n = 0 → (stored = true ∨ ∀ w ≤ ulim, RangeOk bd w) →
      ∀ u v : ℤ, ∀ w : ℕ, 0 < w → w ≤ ulim → (bd w).1 ≤ u → u ≤ (bd w).2 → IsCoprime u (w : ℤ) → ¬ QPoint g u v w) := by
  obtain ⟨-, h2, h3⟩ := range_spec (stored := stored) hP (fun _ => hS) (fun m hm => (hS m hm).1) bd ulim hmax (wList S ulim)
    (fun w hw => (mem_wList.mp hw).1) (st := st) (fun h => by omega)
  refine ⟨fun h => (h2 h).1, fun h0 ho u v w hw hwl hu1 hu2 hc hq => ?_⟩
  have := h3 w (mem_wList.mpr ⟨⟨hw, hwl⟩, fun hh => ?_⟩) (ho.imp_right fun h => h w hwl) u v hq.eqn hc hu1 hu2
  · unfold searchRange at h0
    omega
  · have := (hP u v w hq.eqn hc).2 2 (List.mem_of_mem_head? hh)
    omega

/-! ## C98 -/

/-- the flags computed in `search_range`, for the moduli in use: the flag of the residue `x` is set when the value at
`(x : w)` is a square modulo `aux` -/
theorem C98_flags (g : G) (w : ℤ) (opt m : ℕ) (hm : m ∈ auxList opt) (x : ℕ) (hx : x < m) :
    (flags g w m).getD x false = true ↔ ∃ y : ℤ, (m : ℤ) ∣ y ^ 2 - val g x w := by
  refine flags_spec g w ?_ hx
  have := auxs_good ⟨0, 0, 0, 0, 0⟩ [] opt m
  refine this ?_
  have h0 : (mkSieve ⟨0, 0, 0, 0, 0⟩ [] opt).auxs = auxList opt := by unfold mkSieve; split_ifs <;> rfl
  rw [h0]; exact hm

/-- `search_range` from a state without points: a point found is a point of the quartic; if none is found, there is no
point `(u : w)` in lowest terms in the region.  Proved if `e mod 8 ≤ 4` and `d mod 4 ≠ 3` (see `C98_even_numerators`) and
for all `w` the range of `u` is short or the table of gcds is used (see `C98_flags_lost`). -/
theorem C98_search_partial (g : G) (prs : List ℤ) (hprs : ∀ p ∈ prs, 2 < p ∧ Prime p) (opt : ℕ) (bd : ℕ → ℤ × ℤ)
    (ulim maxn : ℕ) (hmax : 0 < maxn) (st : St) (hst : st.n = 0) (he : g.e % 8 ≤ 4) (hd : g.d % 4 ≠ 3)
    (hr : ∀ w ≤ ulim, (bd w).2 - (bd w).1 ≤ 10 ∨ (w < 10000 ∧ (w : ℤ) / 2 + 2 < (bd w).2 - (bd w).1)) :
    (0 < (searchRange false g (mkSieve g prs opt) bd ulim maxn st).n →
      QPoint g (searchRange false g (mkSieve g prs opt) bd ulim maxn st).pt.1
        (searchRange false g (mkSieve g prs opt) bd ulim maxn st).pt.2.1
        (searchRange false g (mkSieve g prs opt) bd ulim maxn st).pt.2.2) ∧
    ((searchRange false g (mkSieve g prs opt) bd ulim maxn st).n = 0 →
      ∀ u v : ℤ, ∀ w : ℕ, 0 < w → w ≤ ulim → (bd w).1 ≤ u → u ≤ (bd w).2 → IsCoprime u (w : ℤ) → ¬ QPoint g u v w) := by
  obtain ⟨h1, h2⟩ := search_spec (stored := false) (mkSieve_ok hprs he hd opt) (auxs_good g prs opt) bd ulim hmax st hst
  exact ⟨h1, fun h0 => h2 h0 (Or.inr hr)⟩

/-- with the flags stored, the condition on the ranges is not needed -/
theorem C98_search_stored (g : G) (prs : List ℤ) (hprs : ∀ p ∈ prs, 2 < p ∧ Prime p) (opt : ℕ) (bd : ℕ → ℤ × ℤ)
    (ulim maxn : ℕ) (hmax : 0 < maxn) (st : St) (hst : st.n = 0) (he : g.e % 8 ≤ 4) (hd : g.d % 4 ≠ 3)
    (h0 : (searchRange true g (mkSieve g prs opt) bd ulim maxn st).n = 0) :
    ∀ u v : ℤ, ∀ w : ℕ, 0 < w → w ≤ ulim → (bd w).1 ≤ u → u ≤ (bd w).2 → IsCoprime u (w : ℤ) → ¬ QPoint g u v w :=
  (search_spec (stored := true) (mkSieve_ok hprs he hd opt) (auxs_good g prs opt) bd ulim hmax st hst).2 h0 (Or.inl rfl)

/-- the state before the search -/
def st0 : St := ⟨0, (0, 0, 0), [], 0⟩

/-- the odd primes below 100 -/
def prs0 : List ℤ :=
  [3, 5, 7, 11, 13, 17, 19, 23, 29, 31, 37, 41, 43, 47, 53, 59, 61, 67, 71, 73, 79, 83, 89, 97]

/-- `-100x⁴ + 115x³z - 65x²z² + 33xz³ - 6z⁴ = (-5x²+5xz-z²)(20x²-3xz+6z²)` takes positive values for
`0.276 < x < 0.724`; the point `(7 : 145 : 25)` is missed, because the flags computed are lost; it would be found if they
were stored. -/
theorem C98_flags_lost :
    QPoint ⟨-100, 115, -65, 33, -6⟩ 7 145 25 ∧
    (searchRange false ⟨-100, 115, -65, 33, -6⟩ (mkSieve ⟨-100, 115, -65, 33, -6⟩ prs0 3)
      (fun w => (-((-(276392 * (w : ℤ))) / 1000000), 723608 * (w : ℤ) / 1000000)) 30 1 st0).n = 0 ∧
    (searchRange true ⟨-100, 115, -65, 33, -6⟩ (mkSieve ⟨-100, 115, -65, 33, -6⟩ prs0 3)
      (fun w => (-((-(276392 * (w : ℤ))) / 1000000), 723608 * (w : ℤ) / 1000000)) 30 1 st0).pt = (7, 145, 25) := by
  refine ⟨⟨by norm_num, by norm_num⟩, by decide +kernel, by decide +kernel⟩

/-- `2x⁴ - 7x³z + 3xz³ + 5z⁴`: 2 is excluded from the numerators by a comparison with a negative residue, and the point
`(4 : 9 : 1)` is missed. -/
theorem C98_even_numerators :
    QPoint ⟨2, -7, 0, 3, 5⟩ 4 9 1 ∧
    (searchRange true ⟨2, -7, 0, 3, 5⟩ (mkSieve ⟨2, -7, 0, 3, 5⟩ prs0 3) (fun _ => (-4, 4)) 4 1 st0).n = 0 ∧
    (searchRange false ⟨2, -7, 0, 3, 5⟩ (mkSieve ⟨2, -7, 0, 3, 5⟩ prs0 3) (fun _ => (-4, 4)) 4 1 st0).n = 0 := by
  refine ⟨⟨by norm_num, by norm_num⟩, by decide +kernel, by decide +kernel⟩

/-- `2x⁴ + x²z² + 6z⁴` -/
example : (searchRange false ⟨2, 0, 1, 0, 6⟩ (mkSieve ⟨2, 0, 1, 0, 6⟩ prs0 3) (fun _ => (-20, 20)) 20 1 st0).pt =
    (-1, 3, 1) := by decide +kernel

end Eclib.Search
