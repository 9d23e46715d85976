import Verif.Marith.Lemmas

/-! Helper lemmas: modular square roots, Chinese remainder, square-free decomposition,
`rusin_lem3`, `gauss_reduce`. -/

namespace Eclib.Marith

/-! ### chrem -/

theorem chrem_sound (X : XGcd) (a1 a2 m1 m2 : Int) (h1 : m1 ≠ 0)
    (h : (chrem X a1 a2 m1 m2).2 = true) :
    m1 ∣ (chrem X a1 a2 m1 m2).1 - a1 ∧ m2 ∣ (chrem X a1 a2 m1 m2).1 - a2 := by
  unfold chrem at h ⊢
  simp only at h ⊢
  by_cases hr : (a2 - a1).fmod (X.run m1 m2).1 = 0
  · rw [if_pos hr]
    simp only
    have hid := X.identity m1 m2
    have hg := X.gcd_eq m1 m2
    set g := (X.run m1 m2).1
    set u := (X.run m1 m2).2.1
    set v := (X.run m1 m2).2.2
    have hgm1 : g ∣ m1 := by rw [hg]; exact Int.gcd_dvd_left ..
    have hgm2 : g ∣ m2 := by rw [hg]; exact Int.gcd_dvd_right ..
    have hg0 : g ≠ 0 := fun h0 => h1 (by obtain ⟨k, hk⟩ := hgm1; rw [hk, h0, zero_mul])
    obtain ⟨k2, hk2⟩ := hgm2
    obtain ⟨k1, hk1⟩ := hgm1
    have e2 : m2.fdiv g = k2 := by rw [hk2]; exact Int.mul_fdiv_cancel_left _ hg0
    obtain ⟨q, hq⟩ := Int.dvd_of_fmod_eq_zero hr
    have eq : (a2 - a1).fdiv g = q := by rw [hq]; exact Int.mul_fdiv_cancel_left _ hg0
    rw [e2, eq]
    obtain ⟨t, ht⟩ := fmod_dvd_sub (a1 + u * m1 * q) (m1 * k2)
    have hx : (a1 + u * m1 * q).fmod (m1 * k2) = a1 + u * m1 * q - m1 * k2 * t := by linarith
    rw [hx]
    constructor
    · exact ⟨u * q - k2 * t, by ring⟩
    · refine ⟨-(v * q) - k1 * t, ?_⟩
      have : u * m1 * q = (g - m2 * v) * q := by rw [← hid]; ring
      rw [this]
      have h3 : m1 * k2 = m2 * k1 := by rw [hk1, hk2]; ring
      rw [h3]
      linear_combination (-1 : Int) * hq
  · rw [if_neg hr] at h; simp at h

theorem chrem_complete (X : XGcd) (a1 a2 m1 m2 : Int)
    (h : (chrem X a1 a2 m1 m2).2 = false) : ¬ ∃ x, m1 ∣ x - a1 ∧ m2 ∣ x - a2 := by
  rintro ⟨x, hx1, hx2⟩
  unfold chrem at h
  simp only at h
  have hg := X.gcd_eq m1 m2
  have hgm1 : (X.run m1 m2).1 ∣ m1 := by rw [hg]; exact Int.gcd_dvd_left ..
  have hgm2 : (X.run m1 m2).1 ∣ m2 := by rw [hg]; exact Int.gcd_dvd_right ..
  have hd : (X.run m1 m2).1 ∣ a2 - a1 := by
    have := dvd_sub (hgm1.trans hx1) (hgm2.trans hx2)
    have e : (x - a1) - (x - a2) = a2 - a1 := by ring
    rwa [e] at this
  rw [if_pos (Int.fmod_eq_zero_of_dvd hd)] at h
  simp at h

/-! ### Square roots modulo powers of 2 -/

theorem div_eq (f n : Int) : div f n = true ↔ f ∣ n := by
  unfold div
  split_ifs with h
  · subst h; simp
  · simp [fmod_eq_zero_iff]

theorem sqrt2Loop_spec (a : Int) : ∀ (n k : ℕ) (x : Int), 3 ≤ k → Odd x → (2 : Int) ^ k ∣ x * x - a →
    Odd (sqrt2Loop a n x (2 ^ (k - 1)) (2 ^ k) (2 ^ (k + 1))) ∧
    (2 : Int) ^ (k + n) ∣ sqrt2Loop a n x (2 ^ (k - 1)) (2 ^ k) (2 ^ (k + 1)) *
      sqrt2Loop a n x (2 ^ (k - 1)) (2 ^ k) (2 ^ (k + 1)) - a := by
  intro n
  induction n with
  | zero => intro k x _ hx h; exact ⟨hx, h⟩
  | succ n ih =>
    intro k x hk hx h
    rw [sqrt2Loop]
    have e1 : (2 : Int) ^ k = 2 ^ (k + 1 - 1) := by congr 1
    have e2 : (2 : Int) ^ (k + 1) * 2 = 2 ^ (k + 1 + 1) := by ring
    have e3 : k + (n + 1) = k + 1 + n := by ring
    rw [e3]
    split_ifs with hd
    · have hd' : ¬ (2 : Int) ^ (k + 1) ∣ x * x - a := by
        rw [← div_eq]; simpa using hd
      rw [e2]
      conv => rw [e1]
      refine ih (k + 1) _ (by omega) ?_ ?_
      · refine hx.add_even ?_
        exact (even_two).pow_of_ne_zero (by omega)
      · obtain ⟨c, hc⟩ := h
        have hcodd : Odd c := by
          by_contra hce
          rw [Int.not_odd_iff_even] at hce
          obtain ⟨t, ht⟩ := hce
          apply hd'
          exact ⟨t, by rw [hc, ht]; ring⟩
        obtain ⟨i, hi⟩ := hcodd
        obtain ⟨j, hj⟩ := hx
        obtain ⟨k', rfl⟩ : ∃ k', k = k' + 3 := ⟨k - 3, by omega⟩
        have e4 : k' + 3 - 1 = k' + 2 := by omega
        rw [e4]
        refine ⟨i + j + 1 + 2 ^ k', ?_⟩
        have : (x + 2 ^ (k' + 2)) * (x + 2 ^ (k' + 2)) - a =
            (x * x - a) + 2 ^ (k' + 3) * x + 2 ^ (k' + 2) * 2 ^ (k' + 2) := by ring
        rw [this, hc, hi]
        conv_lhs => rw [hj]
        ring
    · have hd' : (2 : Int) ^ (k + 1) ∣ x * x - a := by
        rw [← div_eq]; simpa using hd
      rw [e2]
      conv => rw [e1]
      exact ih (k + 1) x (by omega) hx hd'

theorem sqrtMod2Power_sound (a : Int) (e : ℕ) (x : Int) (h : sqrtMod2Power a e = some x) :
    (2 : Int) ^ e ∣ x ^ 2 - a := by
  unfold sqrtMod2Power at h
  have hp : posmod a 8 = a % 8 := posmod_pos _ _ (by norm_num)
  simp only [hp] at h
  split_ifs at h with h0 h1 h2 h3 h4 h5 h6
  · subst h0; simp
  · cases h
    subst h2
    have : a % 2 = 1 := by omega
    omega
  · cases h
    subst h3
    have : a % 4 = 1 := by omega
    omega
  · cases h
    subst h6
    omega
  · cases h
    have := (sqrt2Loop_spec a (e - 3) 3 1 le_rfl (by decide) (by omega)).2
    have e3 : 3 + (e - 3) = e := by omega
    rw [e3] at this
    rw [sq]
    exact this

theorem sqrtMod2Power_complete (a : Int) (e : ℕ) (ha : Odd a) (h : sqrtMod2Power a e = none) :
    ¬ ∃ x : Int, (2 : Int) ^ e ∣ x ^ 2 - a := by
  rintro ⟨x, hx⟩
  unfold sqrtMod2Power at h
  have hp : posmod a 8 = a % 8 := posmod_pos _ _ (by norm_num)
  simp only [hp] at h
  have ha2 := Int.odd_iff.mp ha
  have hmod4 : ∀ x : Int, x % 2 = 1 → x ^ 2 % 8 = 1 := by
    intro x hx
    have : x % 8 = 1 ∨ x % 8 = 3 ∨ x % 8 = 5 ∨ x % 8 = 7 := by omega
    rw [sq, Int.mul_emod]
    rcases this with h | h | h | h <;> rw [h] <;> rfl
  have hxodd : ∀ e, 1 ≤ e → (2 : Int) ^ e ∣ x ^ 2 - a → x % 2 = 1 := by
    intro e he hd
    have : (2 : Int) ∣ x ^ 2 - a := (dvd_pow_self 2 (by omega)).trans hd
    have h3 : x ^ 2 % 2 = 1 := by omega
    rcases Int.emod_two_eq_zero_or_one x with h | h
    · rw [sq, Int.mul_emod, h] at h3; simp at h3
    · exact h
  split_ifs at h with h0 h1 h2 h3 h4 h5 h6
  · omega
  · subst h3
    have h7 := hmod4 x (hxodd 2 (by norm_num) hx)
    omega
  · have h7 := hmod4 x (hxodd e (by omega) hx)
    have : (2 : Int) ^ 3 ∣ x ^ 2 - a := (pow_dvd_pow 2 (by omega)).trans hx
    omega

/-! ### Square roots modulo odd prime powers -/

theorem sqrtModP_sq (S : SqrRootMod) (a p : Int) (h : p ∣ S.run a p ^ 2 - a) :
    p ∣ sqrtModP S a p ^ 2 - a := by
  unfold sqrtModP
  simp only
  split_ifs
  · have e : (p - S.run a p) ^ 2 - a = (S.run a p ^ 2 - a) + p * (p - 2 * S.run a p) := by ring
    rw [e]
    exact dvd_add h (Dvd.intro _ rfl)
  · exact h

theorem sqrtPLoop_spec (a p s : Int) : ∀ (n k : ℕ) (x : Int), 1 ≤ k → p ∣ 2 * x * s - 1 →
    p ^ k ∣ x * x - a → p ^ (k + n) ∣ sqrtPLoop a p s n x (p ^ k) * sqrtPLoop a p s n x (p ^ k) - a := by
  intro n
  induction n with
  | zero => intro k x _ _ h; exact h
  | succ n ih =>
    intro k x hk hs h
    rw [sqrtPLoop]
    rw [show k + (n + 1) = k + 1 + n by ring, show p ^ k * p = p ^ (k + 1) by ring]
    obtain ⟨t1, ht1⟩ := fmod_dvd_sub (s * (x * x - a)) (p ^ (k + 1))
    set y := x - (s * (x * x - a)).fmod (p ^ (k + 1)) with hy
    obtain ⟨t2, ht2⟩ := fmod_dvd_sub y (p ^ (k + 1))
    obtain ⟨c, hc⟩ := h
    obtain ⟨w, hw⟩ := hs
    obtain ⟨k', rfl⟩ : ∃ k', k = k' + 1 := ⟨k - 1, by omega⟩
    -- the new x is x - s*c*p^k modulo p^(k+1)
    have hz : y.fmod (p ^ (k' + 1 + 1)) = x - s * (p ^ (k' + 1) * c) + p ^ (k' + 1 + 1) * (t1 - t2) := by
      have h1 : y.fmod (p ^ (k' + 1 + 1)) = y - p ^ (k' + 1 + 1) * t2 := by linarith
      have h2 : (s * (x * x - a)).fmod (p ^ (k' + 1 + 1)) =
        s * (x * x - a) - p ^ (k' + 1 + 1) * t1 := by linarith
      rw [h1, hy, h2, hc]; ring
    rw [hz]
    refine ih (k' + 1 + 1) _ (by omega) ?_ ?_
    · refine ⟨w + 2 * s * (-(s * (p ^ k' * c)) + p ^ (k' + 1) * (t1 - t2)), ?_⟩
      linear_combination hw
    · have hxx : x * x = a + p ^ (k' + 1) * c := by linarith
      refine ⟨-(w * c) + p ^ k' * (s * c) ^ 2 +
        2 * (x - s * (p ^ (k' + 1) * c)) * (t1 - t2) + p ^ (k' + 1 + 1) * (t1 - t2) ^ 2, ?_⟩
      linear_combination hxx - p ^ (k' + 1) * c * hw

theorem isSquare_of_legendre {p : ℕ} (hp : p.Prime) (hp2 : p ≠ 2) {a : Int}
    (ha : ¬ (p : Int) ∣ a) (h : legendre a p ≠ some (-1)) : IsSquare (a : ZMod p) := by
  have := Fact.mk hp
  rw [legendre_eq a p (hp.odd_of_ne_two hp2), ← jacobiSym.legendreSym.to_jacobiSym] at h
  have ha' : (a : ZMod p) ≠ 0 := by
    rwa [Ne, ZMod.intCast_zmod_eq_zero_iff_dvd]
  rw [← legendreSym.eq_one_iff p ha']
  rcases legendreSym.eq_one_or_neg_one p ha' with h1 | h1
  · exact h1
  · exact absurd (by rw [h1]) h

theorem not_square_of_legendre {p : ℕ} (hp : p.Prime) (hp2 : p ≠ 2) {a : Int}
    (h : legendre a p = some (-1)) : ¬ IsSquare (a : ZMod p) := by
  have := Fact.mk hp
  rw [legendre_eq a p (hp.odd_of_ne_two hp2), ← jacobiSym.legendreSym.to_jacobiSym] at h
  exact (legendreSym.eq_neg_one_iff p).mp (Option.some.inj h)

theorem invmod_spec (X : XGcd) (a p : Int) (h : Int.gcd a p = 1) : p ∣ a * invmod X a p - 1 := by
  unfold invmod
  have h1 := X.gcd_eq a p
  have h2 := X.identity a p
  rw [h] at h1
  simp only [h1, Nat.cast_one, ne_eq, not_true_eq_false, if_false]
  rw [h1] at h2
  exact ⟨-(X.run a p).2.2, by push_cast at h2; linarith⟩

theorem sqrtP_core (S : SqrRootMod) {p : ℕ} (hp : p.Prime) (hp2 : p ≠ 2) {a : Int}
    (h0 : ¬ (p : Int) ∣ a) (hl : legendre (a.fmod p) p ≠ some (-1)) :
    (p : Int) ∣ sqrtModP S (if a.fmod p < 0 then a.fmod p + p else a.fmod p) p ^ 2 - a := by
  have hpos : (0 : Int) < p := by exact_mod_cast hp.pos
  have hnn := Int.fmod_nonneg_of_pos a hpos
  have hlt := Int.fmod_lt_of_pos a hpos
  rw [if_neg (by omega)]
  obtain ⟨t, ht⟩ := fmod_dvd_sub a p
  have hnd : ¬ (p : Int) ∣ a.fmod p := by
    rintro ⟨c, hc⟩
    exact h0 ⟨c + t, by linarith⟩
  have hsq := isSquare_of_legendre hp hp2 hnd hl
  have h1 := sqrtModP_sq S _ _ (S.spec (a.fmod p) p hp hp2 hnn hlt hsq)
  have e : sqrtModP S (a.fmod p) p ^ 2 - a =
    (sqrtModP S (a.fmod p) p ^ 2 - a.fmod p) - p * t := by rw [← ht]; ring
  rw [e]
  exact dvd_sub h1 (Dvd.intro _ rfl)

theorem sqrtModPPower_sound (X : XGcd) (S : SqrRootMod) (a : Int) (p : ℕ) (hp : p.Prime) (e : ℕ)
    (x : Int) (h : sqrtModPPower X S a p e = some x) : (p : Int) ^ e ∣ x ^ 2 - a := by
  unfold sqrtModPPower at h
  by_cases hp2 : p = 2
  · subst hp2
    rw [if_pos (by rfl)] at h
    exact_mod_cast sqrtMod2Power_sound a e x h
  rw [if_neg (by exact_mod_cast hp2)] at h
  simp only at h
  split_ifs at h with h0 h1 h2 h3 h4 h5
  · subst h0; simp
  · cases h
    subst h3
    rw [pow_one]
    have := sqrtP_core S hp hp2 (a := a) (fun hd => h1 (Int.fmod_eq_zero_of_dvd hd)) h2
    rwa [if_pos h4] at this
  · cases h
    subst h3
    rw [pow_one]
    have := sqrtP_core S hp hp2 (a := a) (fun hd => h1 (Int.fmod_eq_zero_of_dvd hd)) h2
    rwa [if_neg h4] at this
  · have hpos : (0 : Int) < p := by exact_mod_cast hp.pos
    have := Int.fmod_nonneg_of_pos a hpos
    omega
  · cases h
    have hnd : ¬ (p : Int) ∣ a := fun hd => h1 (Int.fmod_eq_zero_of_dvd hd)
    have hx := sqrtP_core S hp hp2 (a := a) hnd h2
    rw [if_neg h5] at hx
    set x := sqrtModP S (a.fmod p) p
    have hpi : Prime (p : Int) := Nat.prime_iff_prime_int.mp hp
    have hg : Int.gcd (2 * x) p = 1 := by
      have hnd2 : ¬ (p : Int) ∣ 2 * x := by
        intro hd
        rcases hpi.dvd_or_dvd hd with h | h
        · have h6 := Int.le_of_dvd (by norm_num) h
          have := hp.two_le
          omega
        · apply hnd
          have h7 := dvd_sub (dvd_pow h two_ne_zero) hx
          simpa using h7
      rw [Int.gcd_comm]
      exact Int.isCoprime_iff_gcd_eq_one.mp ((hpi.irreducible.coprime_iff_not_dvd).mpr hnd2)
    have hs := invmod_spec X (2 * x) p hg
    have hx' : (p : Int) ^ 1 ∣ x * x - a := by rw [pow_one, ← sq]; exact hx
    have := sqrtPLoop_spec a p (invmod X (2 * x) p) (e - 1) 1 x le_rfl hs hx'
    rw [show 1 + (e - 1) = e by omega, pow_one] at this
    rw [sq]
    exact this

theorem sqrtModPPower_complete (X : XGcd) (S : SqrRootMod) (a : Int) (p : ℕ) (hp : p.Prime) (e : ℕ)
    (ha : ¬ (p : Int) ∣ a) (h : sqrtModPPower X S a p e = none) :
    ¬ ∃ x : Int, (p : Int) ^ e ∣ x ^ 2 - a := by
  unfold sqrtModPPower at h
  by_cases hp2 : p = 2
  · subst hp2
    rw [if_pos (by rfl)] at h
    have hodd : Odd a := by
      rw [← Int.not_even_iff_odd, even_iff_two_dvd]; exact_mod_cast ha
    have := sqrtMod2Power_complete a e hodd h
    exact_mod_cast this
  rw [if_neg (by exact_mod_cast hp2)] at h
  have key : e ≠ 0 → legendre (a.fmod p) p = some (-1) →
      ¬ ∃ x : Int, (p : Int) ^ e ∣ x ^ 2 - a := by
    rintro he hl ⟨x, hx⟩
    apply not_square_of_legendre hp hp2 hl
    have hd : (p : Int) ∣ x ^ 2 - a.fmod p := by
      have h1 := (dvd_pow_self (p : Int) he).trans hx
      have h2 := fmod_dvd_sub a p
      have h3 := dvd_add h1 h2
      have e : x ^ 2 - a + (a - a.fmod p) = x ^ 2 - a.fmod p := by ring
      rwa [e] at h3
    rw [← ZMod.intCast_zmod_eq_zero_iff_dvd] at hd
    push_cast at hd
    exact ⟨x, by rw [← sq]; exact (sub_eq_zero.mp hd).symm⟩
  simp only at h
  split_ifs at h with h0 h1 h2
  · exact absurd (Int.dvd_of_fmod_eq_zero h1) ha
  · exact key h0 h2

/-! ### Square roots modulo `m` -/

theorem sqrtMLoop_sound (X : XGcd) (S : SqrRootMod) (a m front : Int) :
    ∀ (ps : List Int) (x mm : Int), (∀ p ∈ ps, 0 < p ∧ Prime p) → ps.Nodup →
      mm ≠ 0 → (∀ p ∈ ps, IsCoprime mm p) → (front ∈ ps → mm = 1 ∧ ps.head? = some front) → mm ∣ x ^ 2 - a →
      ∀ r, sqrtMLoop X S a m front ps x mm = some r →
        mm * Arith.divProd (fun p => val p m) ps ∣ r ^ 2 - a := by
  intro ps
  induction ps with
  | nil =>
    intro x mm _ _ _ _ _ h r hr
    rw [sqrtMLoop] at hr
    cases hr
    simpa [Arith.divProd] using h
  | cons p ps ih =>
    intro x mm hpr hnd hmm hco hfr hx r hr
    have hp0 := (hpr p (by simp)).1
    have hp := (hpr p (by simp)).2
    have hnd' := List.nodup_cons.mp hnd
    have hfront : front ∈ ps → front ∉ ps := by
      intro hf
      have := (hfr (by simp [hf])).2
      simp only [List.head?_cons, Option.some.injEq] at this
      rw [← this]; exact hnd'.1
    have hprod : Arith.divProd (fun p => val p m) (p :: ps) =
        p ^ val p m * Arith.divProd (fun p => val p m) ps := by simp [Arith.divProd]
    rw [sqrtMLoop] at hr
    simp only at hr
    by_cases he : val p m = 0
    · rw [if_pos he] at hr
      rw [hprod, he, pow_zero, one_mul]
      exact ih x mm (fun q hq => hpr q (by simp [hq])) hnd'.2 hmm (fun q hq => hco q (by simp [hq]))
        (fun h => absurd h (hfront h)) hx r hr
    · rw [if_neg he] at hr
      have hpn : (p.natAbs : Int) = p := by omega
      have hpnp : p.natAbs.Prime := Int.prime_iff_natAbs_prime.mp hp
      have hxp : ∀ xp, (if p = 2 then sqrtMod2Power a (val p m)
          else sqrtModPPower X S a p (val p m)) = some xp → p ^ val p m ∣ xp ^ 2 - a := by
        intro xp hxp
        have : sqrtModPPower X S a (p.natAbs : Int) (val p m) = some xp := by
          rw [hpn]
          by_cases h2 : p = 2
          · rw [if_pos h2] at hxp
            unfold sqrtModPPower
            rw [if_pos h2]; exact hxp
          · rw [if_neg h2] at hxp; exact hxp
        have h3 := sqrtModPPower_sound X S a p.natAbs hpnp (val p m) xp this
        rwa [hpn] at h3
      cases hopt : (if p = 2 then sqrtMod2Power a (val p m)
          else sqrtModPPower X S a p (val p m)) with
      | none => rw [hopt] at hr; simp at hr
      | some xp =>
        rw [hopt] at hr
        simp only at hr
        have hxp' := hxp xp hopt
        have hcop : IsCoprime mm (p ^ val p m) := (hco p (by simp)).pow_right
        have hnew : mm * p ^ val p m ∣
            (if p = front then xp else (chrem X x xp mm (p ^ val p m)).1) ^ 2 - a := by
          split_ifs with hf
          · have : mm = 1 := (hfr (by simp [hf])).1
            rw [this, one_mul]; exact hxp'
          · have hflag : (chrem X x xp mm (p ^ val p m)).2 = true := by
              by_contra hc
              have hc' : (chrem X x xp mm (p ^ val p m)).2 = false := by simpa using hc
              apply chrem_complete X x xp mm (p ^ val p m) hc'
              obtain ⟨u, v, huv⟩ := hcop
              refine ⟨x * v * p ^ val p m + xp * u * mm, ⟨(xp - x) * u, ?_⟩, ⟨(x - xp) * v, ?_⟩⟩
              · linear_combination x * huv
              · linear_combination xp * huv
            obtain ⟨c1, c2⟩ := chrem_sound X x xp mm (p ^ val p m) hmm hflag
            set z := (chrem X x xp mm (p ^ val p m)).1
            refine hcop.mul_dvd ?_ ?_
            · have e : z ^ 2 - a = (z - x) * (z + x) + (x ^ 2 - a) := by ring
              rw [e]; exact dvd_add (c1.mul_right _) hx
            · have e : z ^ 2 - a = (z - xp) * (z + xp) + (xp ^ 2 - a) := by ring
              rw [e]; exact dvd_add (c2.mul_right _) hxp'
        have hpq : ∀ q ∈ ps, IsCoprime p q := by
          have hpw := Arith.pairwise_coprime_of_primes (fun q hq => (hpr q hq).1)
            (fun q hq => (hpr q hq).2) hnd
          exact (List.pairwise_cons.mp hpw).1
        have := ih _ (mm * p ^ val p m) (fun q hq => hpr q (by simp [hq])) hnd'.2
          (mul_ne_zero hmm (pow_ne_zero _ hp.ne_zero))
          (fun q hq => (hco q (by simp [hq])).mul_left (hpq q hq).pow_left) ?_ hnew r hr
        · rw [hprod, ← mul_assoc]; exact this
        · intro hfps
          exact absurd hfps (hfront hfps)

theorem sqrtMLoop_complete (X : XGcd) (S : SqrRootMod) (a m front : Int) :
    ∀ (ps : List Int) (x mm : Int), (∀ p ∈ ps, 0 < p ∧ Prime p ∧ (p ∣ m → ¬ p ∣ a)) →
      sqrtMLoop X S a m front ps x mm = none →
      ∃ p ∈ ps, ¬ ∃ z : Int, p ^ val p m ∣ z ^ 2 - a := by
  intro ps
  induction ps with
  | nil => intro x mm _ h; simp [sqrtMLoop] at h
  | cons p ps ih =>
    intro x mm hpr h
    obtain ⟨hp0, hp, hpa⟩ := hpr p (by simp)
    rw [sqrtMLoop] at h
    simp only at h
    by_cases he : val p m = 0
    · rw [if_pos he] at h
      obtain ⟨q, hq, hq'⟩ := ih x mm (fun q hq => hpr q (by simp [hq])) h
      exact ⟨q, by simp [hq], hq'⟩
    · rw [if_neg he] at h
      have hpn : (p.natAbs : Int) = p := by omega
      have hpnp : p.natAbs.Prime := Int.prime_iff_natAbs_prime.mp hp
      have hunify : (if p = 2 then sqrtMod2Power a (val p m)
          else sqrtModPPower X S a p (val p m)) =
            sqrtModPPower X S a (p.natAbs : Int) (val p m) := by
        rw [hpn]
        split_ifs with h2
        · unfold sqrtModPPower; rw [if_pos h2]
        · rfl
      rw [hunify] at h
      cases hopt : sqrtModPPower X S a (p.natAbs : Int) (val p m) with
      | none =>
        refine ⟨p, by simp, ?_⟩
        have hpm : p ∣ m := by
          by_cases hm : m = 0
          · rw [hm]; exact dvd_zero _
          · have hp2 : 2 ≤ |p| := by
              have := hpnp.two_le
              rw [Int.abs_eq_natAbs]; exact_mod_cast this
            exact (dvd_pow_self p he).trans (val_spec p m hp2 hm).1
        have := sqrtModPPower_complete X S a p.natAbs hpnp (val p m) (by rw [hpn]; exact hpa hpm) hopt
        rwa [hpn] at this
      | some xp =>
        rw [hopt] at h
        simp only at h
        obtain ⟨q, hq, hq'⟩ := ih _ _ (fun q hq => hpr q (by simp [hq])) h
        exact ⟨q, by simp [hq], hq'⟩

theorem divProd_val_eq {m : Int} {ps : List Int} (hm : m ≠ 0)
    (hpr : ∀ p ∈ ps, 0 < p ∧ Prime p) (hnd : ps.Nodup)
    (hall : ∀ p, 0 < p → Prime p → p ∣ m → p ∈ ps) :
    Arith.divProd (fun p => val p m) ps = |m| := by
  have hpos : ∀ p ∈ ps, 0 < p := fun p hp => (hpr p hp).1
  have hprime : ∀ p ∈ ps, Prime p := fun p hp => (hpr p hp).2
  have hnn : ∀ ps : List Int, (∀ p ∈ ps, 0 < p) → 0 < Arith.divProd (fun p => val p m) ps := by
    intro ps
    induction ps with
    | nil => intro _; simp [Arith.divProd]
    | cons p ps ih =>
      intro h
      have := ih (fun q hq => h q (by simp [hq]))
      have hp := h p (by simp)
      simp only [Arith.divProd, List.map_cons, List.prod_cons] at this ⊢
      positivity
  have hD := hnn ps hpos
  have h1 : m ∣ Arith.divProd (fun p => val p m) ps := by
    rw [Arith.dvd_divProd_iff hpos hprime hnd hm]
    intro p k hp0 hp hk
    refine ⟨hall p hp0 hp ((dvd_pow_self p (by omega)).trans hk), ?_⟩
    rw [val_eq]
    exact (Arith.pow_dvd_iff_le_val hp hm _).mp hk
  have h2 : Arith.divProd (fun p => val p m) ps ∣ m := by
    by_contra hc
    obtain ⟨p, k, hp0, hp, h3, h4⟩ := Arith.exists_prime_dvd_of_not_dvd hc
    have := ((Arith.pow_dvd_divProd hpos hprime hnd hp hp0 k).mp h3).2
    simp only [val_eq] at this
    exact h4 ((Arith.pow_dvd_iff_le_val hp hm _).mpr this)
  have h3 : m.natAbs = (Arith.divProd (fun p => val p m) ps).natAbs := Int.natAbs_eq_of_dvd_dvd h1 h2
  rw [Int.abs_eq_natAbs, h3]
  omega

/-! ### modsqrt -/

theorem mod_dvd_sub (a b : Int) : b ∣ mod a b - a := by
  unfold mod
  simp only
  obtain ⟨t, ht⟩ := fmod_dvd_sub a (b.natAbs : Int)
  have h : a.fmod (b.natAbs : Int) = a - (b.natAbs : Int) * t := by linarith
  have hb : b ∣ (b.natAbs : Int) := Int.dvd_natAbs.mpr dvd_rfl
  obtain ⟨c, hc⟩ := hb
  rw [h, hc]
  split_ifs
  · exact ⟨-(c * t) - c, by ring⟩
  · exact ⟨-(c * t) + c, by ring⟩
  · exact ⟨-(c * t), by ring⟩

theorem modsqrt_step (S : SqrRootMod) (a p : Int) (hp0 : 0 < p) (hp : Prime p) :
    (∀ xp, (if p = 2 then some (if a % 2 = 1 then 1 else 0)
      else if a.fmod p = 0 then some 0
      else if legendre (a.fmod p) p = some (-1) then none
      else some (sqrtModP S (if a.fmod p < 0 then a.fmod p + p else a.fmod p) p)) = some xp →
      p ∣ xp ^ 2 - a) ∧
    ((if p = 2 then some (if a % 2 = 1 then (1 : Int) else 0)
      else if a.fmod p = 0 then some 0
      else if legendre (a.fmod p) p = some (-1) then none
      else some (sqrtModP S (if a.fmod p < 0 then a.fmod p + p else a.fmod p) p)) = none →
      ¬ ∃ z : Int, p ∣ z ^ 2 - a) := by
  have hpn : (p.natAbs : Int) = p := by omega
  have hpnp : p.natAbs.Prime := Int.prime_iff_natAbs_prime.mp hp
  by_cases hp2 : p = 2
  · subst hp2
    refine ⟨fun xp h => ?_, fun h => by simp at h⟩
    rw [if_pos rfl] at h
    cases h
    split_ifs <;> omega
  · simp only [hp2, if_false]
    have hp2' : p.natAbs ≠ 2 := by omega
    by_cases h0 : a.fmod p = 0
    · simp only [h0, if_true]
      refine ⟨fun xp h => ?_, fun h => by simp at h⟩
      cases h
      have := Int.dvd_of_fmod_eq_zero h0
      simpa using this
    · simp only [h0, if_false]
      by_cases hl : legendre (a.fmod p) p = some (-1)
      · simp only [hl, if_true]
        refine ⟨fun xp h => by simp at h, fun _ => ?_⟩
        rintro ⟨z, hz⟩
        rw [← hpn] at hl
        apply not_square_of_legendre hpnp hp2' hl
        rw [hpn]
        have h3 := dvd_add hz (fmod_dvd_sub a p)
        have e : z ^ 2 - a + (a - a.fmod p) = z ^ 2 - a.fmod p := by ring
        rw [e] at h3
        have h4 : (p.natAbs : Int) ∣ z ^ 2 - a.fmod p := by rw [hpn]; exact h3
        rw [← ZMod.intCast_zmod_eq_zero_iff_dvd] at h4
        push_cast at h4
        exact ⟨z, by rw [← sq]; exact (sub_eq_zero.mp h4).symm⟩
      · simp only [hl, if_false]
        refine ⟨fun xp h => ?_, fun h => by simp at h⟩
        cases h
        have := sqrtP_core S hpnp hp2' (a := a)
          (by rw [hpn]; exact fun hd => h0 (Int.fmod_eq_zero_of_dvd hd)) (by rw [hpn]; exact hl)
        rwa [hpn] at this

theorem modsqrtLoop_spec (X : XGcd) (S : SqrRootMod) (a : Int) :
    ∀ (ps : List Int) (x m : Int), (∀ p ∈ ps, 0 < p ∧ Prime p) → ps.Nodup →
      (∀ p ∈ ps, IsCoprime m p) → m ∣ x ^ 2 - a →
      (∀ r, modsqrtLoop X S a ps x m = some r → m * ps.prod ∣ r ^ 2 - a) ∧
      (modsqrtLoop X S a ps x m = none → ∃ p ∈ ps, ¬ ∃ z : Int, p ∣ z ^ 2 - a) := by
  intro ps
  induction ps with
  | nil =>
    intro x m _ _ _ h
    refine ⟨fun r hr => ?_, fun h => by simp [modsqrtLoop] at h⟩
    rw [modsqrtLoop] at hr
    cases hr
    simpa using h
  | cons p ps ih =>
    intro x m hpr hnd hco hx
    obtain ⟨hp0, hp⟩ := hpr p (by simp)
    have hnd' := List.nodup_cons.mp hnd
    obtain ⟨s1, s2⟩ := modsqrt_step S a p hp0 hp
    rw [modsqrtLoop]
    simp only
    cases hopt : (if p = 2 then some (if a % 2 = 1 then (1 : Int) else 0)
      else if a.fmod p = 0 then some 0
      else if legendre (a.fmod p) p = some (-1) then none
      else some (sqrtModP S (if a.fmod p < 0 then a.fmod p + p else a.fmod p) p)) with
    | none =>
      refine ⟨fun r hr => by simp at hr, fun _ => ⟨p, by simp, s2 hopt⟩⟩
    | some xp =>
      simp only
      have hxp := s1 xp hopt
      have hpq : ∀ q ∈ ps, IsCoprime p q := by
        have hpw := Arith.pairwise_coprime_of_primes (fun q hq => (hpr q hq).1)
          (fun q hq => (hpr q hq).2) hnd
        exact (List.pairwise_cons.mp hpw).1
      have hmp : IsCoprime m p := hco p (by simp)
      have hid := X.identity m p
      have hg := X.gcd_eq m p
      rw [Int.isCoprime_iff_gcd_eq_one.mp hmp] at hg
      rw [hg] at hid
      push_cast at hid
      set u := (X.run m p).2.1
      set v := (X.run m p).2.2
      set w := x * v * p + xp * u * m with hw
      have hnew : m * p ∣ mod w (m * p) ^ 2 - a := by
        have hd := mod_dvd_sub w (m * p)
        have hw2 : m * p ∣ w ^ 2 - a := by
          refine hmp.mul_dvd ?_ ?_
          · obtain ⟨c, hc⟩ := hx
            refine ⟨c + (xp - x) * u * (w + x), ?_⟩
            have : w - x = m * ((xp - x) * u) := by rw [hw]; linear_combination x * hid
            linear_combination hc + (w + x) * this
          · obtain ⟨c, hc⟩ := hxp
            refine ⟨c + (x - xp) * v * (w + xp), ?_⟩
            have : w - xp = p * ((x - xp) * v) := by rw [hw]; linear_combination xp * hid
            linear_combination hc + (w + xp) * this
        have e : mod w (m * p) ^ 2 - a =
          (mod w (m * p) - w) * (mod w (m * p) + w) + (w ^ 2 - a) := by ring
        rw [e]
        exact dvd_add (hd.mul_right _) hw2
      have := ih (mod w (m * p)) (m * p) (fun q hq => hpr q (by simp [hq])) hnd'.2
        (fun q hq => (hco q (by simp [hq])).mul_left (hpq q hq)) hnew
      refine ⟨fun r hr => ?_, fun h => ?_⟩
      · rw [List.prod_cons, ← mul_assoc]; exact this.1 r hr
      · obtain ⟨q, hq, hq'⟩ := this.2 h
        exact ⟨q, by simp [hq], hq'⟩

/-! ### sqfdecomp -/

theorem sqfLoop_spec (a : Int) : ∀ (ps : List Int) (a1 a2 : Int) (l : List Int),
    sqfLoop a ps (a1, a2, l) =
      (a1 * Arith.divProd (fun p => val p a % 2) ps, a2 * Arith.divProd (fun p => val p a / 2) ps,
        l ++ ps.filter (fun p => val p a % 2 = 1)) := by
  intro ps
  induction ps with
  | nil => intro a1 a2 l; simp [sqfLoop, Arith.divProd]
  | cons p ps ih =>
    intro a1 a2 l
    rw [sqfLoop]
    simp only
    by_cases he : val p a = 0
    · rw [if_pos he, ih]
      simp [Arith.divProd, he]
    · rw [if_neg he]
      by_cases ho : val p a % 2 = 1
      · rw [if_pos ho, ih]
        simp only [Arith.divProd, List.map_cons, List.prod_cons, ho, List.filter_cons, decide_true,
          if_true]
        refine Prod.ext ?_ (Prod.ext ?_ ?_)
        · simp only; ring
        · simp only; ring
        · simp
      · have h0 : val p a % 2 = 0 := by omega
        rw [if_neg ho, ih]
        simp only [Arith.divProd, List.map_cons, List.prod_cons, h0, List.filter_cons, pow_zero]
        refine Prod.ext ?_ (Prod.ext ?_ ?_)
        · simp only; ring
        · simp only; ring
        · simp

theorem divProd_mul (e f : Int → ℕ) (ps : List Int) :
    Arith.divProd e ps * Arith.divProd f ps ^ 2 = Arith.divProd (fun p => e p + 2 * f p) ps := by
  induction ps with
  | nil => simp [Arith.divProd]
  | cons p ps ih =>
    simp only [Arith.divProd, List.map_cons, List.prod_cons] at ih ⊢
    rw [← ih]; ring

theorem divProd_pos (e : Int → ℕ) (ps : List Int) (h : ∀ p ∈ ps, 0 < p) :
    0 < Arith.divProd e ps := by
  induction ps with
  | nil => simp [Arith.divProd]
  | cons p ps ih =>
    have := ih (fun q hq => h q (by simp [hq]))
    have hp := h p (by simp)
    simp only [Arith.divProd, List.map_cons, List.prod_cons] at this ⊢
    positivity

theorem squarefree_divProd (e : Int → ℕ) (he : ∀ p, e p ≤ 1) (ps : List Int)
    (hpr : ∀ p ∈ ps, 0 < p ∧ Prime p) (hnd : ps.Nodup) : Squarefree (Arith.divProd e ps) := by
  have hpos : ∀ p ∈ ps, 0 < p := fun p hp => (hpr p hp).1
  have hprime : ∀ p ∈ ps, Prime p := fun p hp => (hpr p hp).2
  rw [squarefree_iff_irreducible_sq_not_dvd_of_ne_zero (divProd_pos e ps hpos).ne']
  intro x hx hxx
  have habs : Prime |x| := by
    rcases abs_choice x with h | h <;> rw [h]
    · exact hx.prime
    · exact (Associated.neg_left (Associated.refl x)).symm.prime hx.prime
  have h2 : |x| ^ (1 + 1) ∣ Arith.divProd e ps := by
    rw [one_add_one_eq_two, sq_abs, sq]; exact hxx
  have := ((Arith.pow_dvd_divProd hpos hprime hnd habs (abs_pos.mpr hx.ne_zero) 1).mp h2).2
  have := he |x|
  omega

/-! ### rusin_lem3 -/

/-- The invariant of the loop. -/
structure Lem3.Inv (a b : Int) (s : Lem3) (ph : Fin 3) : Prop where
  ha : a = s.c1 ^ 2 * s.m1 * s.m3
  hb : b = s.c2 ^ 2 * s.m2 * s.m3
  hm3 : 0 < s.m3
  hc1 : 0 < s.c1
  hc2 : 0 < s.c2
  hcheck : s.check ≤ 3
  /-- one unsuccessful step: the previous pair is coprime -/
  h1 : s.check ≤ 2 → match ph with
    | 0 => Int.gcd s.m2 s.m3 = 1
    | 1 => Int.gcd s.m1 s.m2 = 1
    | 2 => Int.gcd s.m1 s.m3 = 1
  h2 : s.check ≤ 1 → match ph with
    | 0 => Int.gcd s.m1 s.m3 = 1
    | 1 => Int.gcd s.m2 s.m3 = 1
    | 2 => Int.gcd s.m1 s.m2 = 1
  h3 : s.check = 0 → Int.gcd s.m1 s.m2 = 1 ∧ Int.gcd s.m1 s.m3 = 1 ∧ Int.gcd s.m2 s.m3 = 1

theorem Lem3.gcd_eq_one {x y : Int} (hx : x ≠ 0) (h : ¬ (Int.gcd x y : Int) > 1) :
    Int.gcd x y = 1 := by
  have : Int.gcd x y ≠ 0 := fun h0 => hx (Int.gcd_eq_zero_iff.mp h0).1
  omega

theorem Lem3.step_inv {a b : Int} (ha0 : a ≠ 0) (hb0 : b ≠ 0) {s : Lem3} {ph : Fin 3}
    (h : s.Inv a b ph) (hc : 0 < s.check) : (s.step ph).Inv a b (ph + 1) := by
  obtain ⟨ha, hb, hm3, hc1, hc2, hck, g1, g2, g3⟩ := h
  have hm1 : s.m1 ≠ 0 := by rintro h0; rw [h0] at ha; simp at ha; exact ha0 ha
  have hm2 : s.m2 ≠ 0 := by rintro h0; rw [h0] at hb; simp at hb; exact hb0 hb
  match ph, g1, g2 with
  | 0, g1, g2 =>
    simp only [Lem3.step]
    split_ifs with hd
    · obtain ⟨x, hx⟩ := Int.gcd_dvd_left s.m1 s.m2
      obtain ⟨y, hy⟩ := Int.gcd_dvd_right s.m1 s.m2
      set d : Int := (Int.gcd s.m1 s.m2 : Int)
      have hd0 : d ≠ 0 := by omega
      have e1 : s.m1.fdiv d = x := by rw [hx]; exact Int.mul_fdiv_cancel_left _ hd0
      have e2 : s.m2.fdiv d = y := by rw [hy]; exact Int.mul_fdiv_cancel_left _ hd0
      rw [e1, e2]
      refine ⟨?_, ?_, by positivity, hc1, hc2, le_rfl, by simp, by simp, by simp⟩
      · simp only; rw [ha, hx]; ring
      · simp only; rw [hb, hy]; ring
    · have hg := Lem3.gcd_eq_one hm1 hd
      refine ⟨ha, hb, hm3, hc1, hc2, by simp only; omega, fun _ => hg, fun hh => ?_, fun hh => ?_⟩
      · exact g1 (by simp only at hh; omega)
      · simp only at hh ⊢
        exact ⟨hg, g2 (by omega), g1 (by omega)⟩
  | 1, g1, g2 =>
    simp only [Lem3.step]
    split_ifs with hd
    · obtain ⟨x, hx⟩ := Int.gcd_dvd_left s.m1 s.m3
      obtain ⟨y, hy⟩ := Int.gcd_dvd_right s.m1 s.m3
      set d : Int := (Int.gcd s.m1 s.m3 : Int)
      have hd0 : d ≠ 0 := by omega
      have e1 : s.m1.fdiv d = x := by rw [hx]; exact Int.mul_fdiv_cancel_left _ hd0
      have e2 : s.m3.fdiv d = y := by rw [hy]; exact Int.mul_fdiv_cancel_left _ hd0
      have hy0 : 0 < y := by
        rw [hy] at hm3
        exact (pos_iff_pos_of_mul_pos hm3).mp (by omega)
      rw [e1, e2]
      refine ⟨?_, ?_, hy0, by positivity, hc2, le_rfl, by simp, by simp, by simp⟩
      · simp only; rw [ha, hx, hy]; ring
      · simp only; rw [hb, hy]; ring
    · have hg := Lem3.gcd_eq_one hm1 hd
      refine ⟨ha, hb, hm3, hc1, hc2, by simp only; omega, fun _ => hg, fun hh => ?_, fun hh => ?_⟩
      · exact g1 (by simp only at hh; omega)
      · simp only at hh ⊢
        exact ⟨g1 (by omega), hg, g2 (by omega)⟩
  | 2, g1, g2 =>
    simp only [Lem3.step]
    split_ifs with hd
    · obtain ⟨x, hx⟩ := Int.gcd_dvd_left s.m2 s.m3
      obtain ⟨y, hy⟩ := Int.gcd_dvd_right s.m2 s.m3
      set d : Int := (Int.gcd s.m2 s.m3 : Int)
      have hd0 : d ≠ 0 := by omega
      have e1 : s.m2.fdiv d = x := by rw [hx]; exact Int.mul_fdiv_cancel_left _ hd0
      have e2 : s.m3.fdiv d = y := by rw [hy]; exact Int.mul_fdiv_cancel_left _ hd0
      have hy0 : 0 < y := by
        rw [hy] at hm3
        exact (pos_iff_pos_of_mul_pos hm3).mp (by omega)
      rw [e1, e2]
      refine ⟨?_, ?_, hy0, hc1, by positivity, le_rfl, by simp, by simp, by simp⟩
      · simp only; rw [ha, hy]; ring
      · simp only; rw [hb, hx, hy]; ring
    · have hg := Lem3.gcd_eq_one hm2 hd
      refine ⟨ha, hb, hm3, hc1, hc2, by simp only; omega, fun _ => hg, fun hh => ?_, fun hh => ?_⟩
      · exact g1 (by simp only at hh; omega)
      · simp only at hh ⊢
        exact ⟨g2 (by omega), g1 (by omega), hg⟩

theorem Lem3.run_inv {a b : Int} (ha0 : a ≠ 0) (hb0 : b ≠ 0) (s : Lem3) (ph : Fin 3)
    (h : s.Inv a b ph) : ∃ ph', (s.run ph).Inv a b ph' ∧ (s.run ph).check = 0 := by
  induction s, ph using Lem3.run.induct with
  | case1 s ph hc ih =>
    rw [Lem3.run, dif_pos hc]
    exact ih (Lem3.step_inv ha0 hb0 h hc.2)
  | case2 s ph hc =>
    rw [Lem3.run, dif_neg hc]
    refine ⟨ph, h, ?_⟩
    have hm1 : s.m1 ≠ 0 := by
      rintro h0; have ha := h.ha; rw [h0] at ha; simp at ha; exact ha0 ha
    have hm2 : s.m2 ≠ 0 := by
      rintro h0; have hb := h.hb; rw [h0] at hb; simp at hb; exact hb0 hb
    have hsz : s.size ≠ 0 := by
      unfold Lem3.size
      rw [Int.natAbs_ne_zero]
      exact mul_ne_zero (mul_ne_zero hm1 hm2) h.hm3.ne'
    by_contra hne
    exact hc ⟨hsz, Nat.pos_of_ne_zero hne⟩

/-! ### gauss_reduce and modrat -/

/-- What the loop of `gauss_reduce` keeps: the lattice basis has determinant `D` and stays inside
the set `L` of vectors, closed under integer combinations. -/
structure GState.Inv (D m n : Int) (s : GState) : Prop where
  det : s.a * s.d - s.b * s.c = D
  P : s.P = s.a * s.a + s.b * s.b
  R : s.R = s.c * s.c + s.d * s.d
  la : m ∣ s.a - n * s.b
  lc : m ∣ s.c - n * s.d

theorem GState.shift_inv {D m n : Int} {s : GState} (h : s.Inv D m n) (t : Int) :
    (s.shift t).Inv D m n := by
  unfold GState.shift
  split_ifs with ht
  · refine ⟨?_, h.P, rfl, h.la, ?_⟩
    · rw [← h.det]; ring
    · have := dvd_sub h.lc (h.la.mul_left t)
      have e : s.c - t * s.a - n * (s.d - t * s.b) = s.c - n * s.d - t * (s.a - n * s.b) := by ring
      rwa [e]
  · exact h

theorem GState.invert_inv {D m n : Int} {s : GState} (h : s.Inv D m n) (negQ : Bool) :
    (s.invert negQ).Inv D m n := by
  unfold GState.invert
  refine ⟨?_, h.R, ?_, h.lc, ?_⟩
  · simp only; rw [← h.det]; ring
  · simp only; rw [h.P]; ring
  · simp only
    have e : -s.a - n * -s.b = -(s.a - n * s.b) := by ring
    rw [e]; exact (dvd_neg).mpr h.la

theorem GState.shift_P (s : GState) (t : Int) : (s.shift t).P = s.P := by
  unfold GState.shift; split_ifs <;> rfl

theorem GState.shift_Q {s : GState} (t : Int) (hQ : s.Q = s.a * s.c + s.b * s.d)
    (hP : s.P = s.a * s.a + s.b * s.b) :
    (s.shift t).Q = (s.shift t).a * (s.shift t).c + (s.shift t).b * (s.shift t).d := by
  unfold GState.shift
  split_ifs
  · simp only; rw [hQ, hP]; ring
  · exact hQ

/-- The loop terminates with a basis of the same lattice (both versions), provided `D ≠ 0`. -/
theorem GState.loop_inv {D m n : Int} (hD : D ≠ 0) (negQ : Bool) (s : GState) (h : s.Inv D m n) :
    ∃ r, s.loop negQ = some r ∧ r.Inv D m n := by
  induction s using GState.loop.induct negQ with
  | case1 s hP t s1 hR ih =>
    rw [GState.loop, dif_pos hP]
    simp only
    rw [dif_pos hR]
    exact ih (GState.invert_inv (GState.shift_inv h _) negQ)
  | case2 s hP t s1 hR ht =>
    rw [GState.loop, dif_pos hP]
    simp only
    rw [dif_neg hR, dif_pos ht]
    exact ⟨_, rfl, GState.shift_inv h _⟩
  | case3 s hP t s1 hR ht ih =>
    rw [GState.loop, dif_pos hP]
    simp only
    rw [dif_neg hR, dif_neg ht]
    exact ih (GState.shift_inv h _)
  | case4 s hP =>
    exfalso
    apply hP
    rw [h.P]
    have h1 := mul_self_nonneg s.a
    have h2 := mul_self_nonneg s.b
    by_contra hc
    have ha : s.a * s.a = 0 := by omega
    have hb : s.b * s.b = 0 := by omega
    apply hD
    rw [← h.det, mul_self_eq_zero.mp ha, mul_self_eq_zero.mp hb]; ring

/-- The `long` version ends with a reduced basis. -/
theorem GState.loop_reduced {D m n : Int} (s : GState) (h : s.Inv D m n)
    (hQ : s.Q = s.a * s.c + s.b * s.d) (r : GState) (hr : s.loop true = some r) :
    r.Q = r.a * r.c + r.b * r.d ∧ -r.P ≤ 2 * r.Q ∧ 2 * r.Q ≤ r.P ∧ r.P ≤ r.R := by
  induction s using GState.loop.induct true with
  | case1 s hP t s1 hR ih =>
    rw [GState.loop, dif_pos hP] at hr
    simp only at hr
    rw [dif_pos hR] at hr
    refine ih (GState.invert_inv (GState.shift_inv h _) true) ?_ hr
    have := GState.shift_Q t hQ h.P
    simp only [GState.invert, if_true]
    rw [this]; ring
  | case2 s hP t s1 hR ht =>
    rw [GState.loop, dif_pos hP] at hr
    simp only at hr
    rw [dif_neg hR, dif_pos ht] at hr
    cases hr
    have hs : s.shift t = s := by
      unfold GState.shift; rw [if_neg (by simpa using ht)]
    have e : s.shift (Arith.roundedDivision s.Q s.P) = s := hs
    rw [e]
    have hR' : ¬ s.R < s.P := by rw [← hs]; exact hR
    refine ⟨hQ, ?_, ?_, by omega⟩
    all_goals
      have h0 : Arith.roundedDivision s.Q s.P = 0 := ht
      have habs : (s.Q.tmod s.P).natAbs < s.P.natAbs := by
        rw [Int.natAbs_tmod]; exact Nat.mod_lt _ (by omega)
      unfold Arith.roundedDivision at h0
      have h := Int.tmod_add_mul_tdiv s.Q s.P
      simp only at h0
      split_ifs at h0 with g1 g2
      · have e : s.Q.tdiv s.P = 1 := by omega
        rw [e] at h
        omega
      · have e : s.Q.tdiv s.P = -1 := by omega
        rw [e] at h
        omega
      · rw [h0] at h
        omega
  | case3 s hP t s1 hR ht ih =>
    rw [GState.loop, dif_pos hP] at hr
    simp only at hr
    rw [dif_neg hR, dif_neg ht] at hr
    exact ih (GState.shift_inv h _) (GState.shift_Q t hQ h.P) hr
  | case4 s hP =>
    rw [GState.loop, dif_neg hP] at hr
    simp at hr

/-- In a reduced basis the first vector is shortest among the non-zero vectors. -/
theorem reduced_min {P Q R x y : Int} (hP : 0 ≤ P) (h1 : -P ≤ 2 * Q) (h2 : 2 * Q ≤ P) (h3 : P ≤ R)
    (h : x ≠ 0 ∨ y ≠ 0) : P ≤ x * x * P + 2 * x * y * Q + y * y * R := by
  have key : 1 ≤ x * x - |x * y| + y * y := by
    rcases le_or_gt 0 (x * y) with hxy | hxy
    · rw [abs_of_nonneg hxy]
      by_cases he : x = y
      · subst he
        have : 0 < x * x := by
          have : x ≠ 0 := by tauto
          exact mul_self_pos.mpr this
        omega
      · have : 0 < (x - y) * (x - y) := by
          have : x - y ≠ 0 := sub_ne_zero.mpr he
          exact mul_self_pos.mpr this
        nlinarith
    · rw [abs_of_neg hxy]
      nlinarith [mul_self_nonneg (x + y), mul_self_nonneg x, mul_self_nonneg y]
  have hq : -(|x * y| * P) ≤ 2 * x * y * Q := by
    rcases le_or_gt 0 (x * y) with hxy | hxy
    · rw [abs_of_nonneg hxy]; nlinarith
    · rw [abs_of_neg hxy]; nlinarith
  nlinarith [mul_self_nonneg y]

end Eclib.Marith
