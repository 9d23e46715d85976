import Verif.Primes.Model
import Mathlib.Data.Nat.Nth
import Mathlib.Data.Nat.Prime.Nth
import Mathlib.NumberTheory.PrimeCounting
import Mathlib.Tactic.Ring
import Mathlib.Tactic.Linarith
import Mathlib.Algebra.BigOperators.Intervals

/-! # The sieve fills the table with the differences of the primes -/

namespace Eclib.Primes

theorem skip_spec (p : Mem) (cells q z : Nat) (hz : q < z) (hc : z < cells) (h0 : p z = 0) :
    ∃ q', skip p cells q = some q' ∧ q < q' ∧ q' ≤ z ∧ p q' = 0 ∧
      ∀ j, q < j → j < q' → p j ≠ 0 := by
  fun_induction skip p cells q with
  | case1 q h hne ih =>
    have : q + 1 ≠ z := fun h => hne (h ▸ h0)
    obtain ⟨q', h1, h2, h3, h4, h5⟩ := ih (by omega)
    refine ⟨q', h1, by omega, h3, h4, fun j hj hj' => ?_⟩
    by_cases hjq : j = q + 1
    · rw [hjq]; exact hne
    · exact h5 j (by omega) hj'
  | case2 q h hne =>
    refine ⟨q + 1, rfl, by omega, by omega, by simpa using hne, fun j hj hj' => by omega⟩
  | case3 q h => omega

theorem mark_spec (p : Mem) (fin k s : Nat) (hk : 0 < k) (j : Nat) :
    mark p fin k s j = if j < fin ∧ s ≤ j ∧ k ∣ j - s then 1 else p j := by
  fun_induction mark p fin k s with
  | case1 p s h ih =>
    rw [ih]
    by_cases hj : j < fin
    · by_cases hsj : j = s
      · subst hsj
        rw [if_neg (by omega), if_pos (by simp [hj])]
        simp [Mem.put]
      · have hp : (p.put s 1) j = p j := by simp [Mem.put, hsj]
        rw [hp]
        congr 1
        simp only [hj, true_and]
        refine propext ⟨fun ⟨h1, h2⟩ => ⟨by omega, ?_⟩, fun ⟨h1, h2⟩ => ?_⟩
        · have : j - s = (j - (s + k)) + k := by omega
          rw [this]
          exact Dvd.dvd.add h2 (dvd_refl k)
        · have hle : k ≤ j - s := Nat.le_of_dvd (by omega) h2
          refine ⟨by omega, ?_⟩
          have : j - (s + k) = (j - s) - k := by omega
          rw [this]
          exact Nat.dvd_sub h2 (dvd_refl k)
    · have : j ≠ s := by omega
      rw [if_neg (by simp [hj]), if_neg (by simp [hj])]
      simp [Mem.put, this]
  | case2 p s h =>
    rw [if_neg]
    omega

theorem bump_spec (n m : Nat) :
    bump n (2 * m * (m + 1), 2 * m + 1) = (2 * (m + n) * (m + n + 1), 2 * (m + n) + 1) := by
  induction n generalizing m with
  | zero => simp [bump]
  | succ n ih =>
    have e1 : 2 * m * (m + 1) + (2 * m + 1) + (2 * m + 1 + 2) = 2 * (m + 1) * (m + 1 + 1) := by ring
    have e2 : 2 * m + 1 + 2 = 2 * (m + 1) + 1 := by ring
    rw [bump, e1, e2, ih]
    have : m + 1 + n = m + (n + 1) := by omega
    rw [this]

/-- the state of the array when the odd primes up to `2q+1` have been dealt with -/
def Marked (p : Mem) (fin q : Nat) : Prop :=
  ∀ j, p j = 0 ∨ p j = 1 ∧ j < fin ∧ ∃ m, 1 ≤ m ∧ m ≤ q ∧ (2 * m + 1).Prime ∧
    (2 * m + 1) * (2 * m + 1) ≤ 2 * j + 1 ∧ 2 * m + 1 ∣ 2 * j + 1

/-- … and everything that should be marked is -/
def Complete (p : Mem) (fin q : Nat) : Prop :=
  ∀ j, j < fin → ∀ m, 1 ≤ m → m ≤ q → (2 * m + 1).Prime →
    (2 * m + 1) * (2 * m + 1) ≤ 2 * j + 1 → 2 * m + 1 ∣ 2 * j + 1 → p j = 1

/-- the array after the sieve -/
def Sieved (p : Mem) (fin : Nat) : Prop :=
  (∀ j, 1 ≤ j → j < fin → (p j = 0 ↔ (2 * j + 1).Prime)) ∧ ∀ j, fin ≤ j → p j = 0

theorem odd_factor {j : Nat} (hj : 1 ≤ j) (hp : ¬ (2 * j + 1).Prime) :
    ∃ m, 1 ≤ m ∧ m < j ∧ (2 * m + 1).Prime ∧ (2 * m + 1) * (2 * m + 1) ≤ 2 * j + 1 ∧
      2 * m + 1 ∣ 2 * j + 1 := by
  have h1 : (2 * j + 1).minFac.Prime := Nat.minFac_prime (by omega)
  have h2 : (2 * j + 1).minFac ∣ 2 * j + 1 := Nat.minFac_dvd _
  have h3 : (2 * j + 1).minFac ^ 2 ≤ 2 * j + 1 := Nat.minFac_sq_le_self (by omega) hp
  have h4 : (2 * j + 1).minFac ≠ 2 := by
    intro h
    rw [h] at h2
    omega
  obtain ⟨m, hm⟩ := (h1.odd_of_ne_two h4)
  rw [hm] at h1 h2 h3
  have h5 := h1.two_le
  refine ⟨m, by omega, ?_, h1, by nlinarith, h2⟩
  nlinarith

theorem sieved_of_marked {p : Mem} {fin q : Nat} (h1 : Marked p fin q) (h2 : Complete p fin q)
    (hr : fin ≤ 2 * q * (q + 1)) : Sieved p fin := by
  refine ⟨fun j hj hjf => ⟨fun h0 => ?_, fun hp => ?_⟩, fun j hj => ?_⟩
  · by_contra hp
    obtain ⟨m, hm1, hm2, hm3, hm4, hm5⟩ := odd_factor hj hp
    have hmq : m ≤ q := by
      by_contra hlt
      have : q + 1 ≤ m := by omega
      nlinarith
    have := h2 j hjf m hm1 hmq hm3 hm4 hm5
    omega
  · rcases h1 j with h | ⟨h, -, m, hm1, hm2, hm3, hm4, hm5⟩
    · exact h
    · rcases (Nat.dvd_prime hp).mp hm5 with h | h
      · omega
      · rw [h] at hm4
        nlinarith
  · rcases h1 j with h | ⟨h, h', -⟩
    · exact h
    · omega

theorem sieve_spec (fin : Nat) (p : Mem) (r q k : Nat) (hr : r = 2 * q * (q + 1))
    (hk : k = 2 * q + 1) (hq : q ≤ fin) (h1 : Marked p fin q) (h2 : Complete p fin q) :
    ∃ p', sieve (fin + 1) fin p r q k = some p' ∧ Sieved p' fin := by
  fun_induction sieve (fin + 1) fin p r q k with
  | case1 p r q k h hs =>
    have hz : p fin = 0 := by
      rcases h1 fin with h | ⟨_, h, _⟩
      · exact h
      · omega
    have hqf : q < fin := by
      rcases Nat.eq_or_lt_of_le hq with rfl | h
      · exfalso
        rcases Nat.eq_zero_or_pos q with h0 | h0
        · omega
        · have : q * (q + 1) ≥ q := by nlinarith
          nlinarith
      · exact h
    obtain ⟨q', e, -⟩ := skip_spec p (fin + 1) q fin hqf (by omega) hz
    rw [hs] at e
    cases e
  | case2 p r q k h q' hs rk hq' ih =>
    have hz : p fin = 0 := by
      rcases h1 fin with h | ⟨_, h, _⟩
      · exact h
      · omega
    obtain ⟨q'', e, a1, a2, a3, a4⟩ := skip_spec p (fin + 1) q fin (by
      rcases Nat.eq_or_lt_of_le hq with rfl | h
      · omega
      · exact h) (by omega) hz
    rw [hs] at e
    cases e
    have hrk : rk = (2 * q' * (q' + 1), 2 * q' + 1) := by
      have : rk = bump (q' - q) (r, k) := rfl
      rw [this, hr, hk, bump_spec]
      have : q + (q' - q) = q' := by omega
      rw [this]
    have e1 : rk.1 = 2 * q' * (q' + 1) := by rw [hrk]
    have e2 : rk.2 = 2 * q' + 1 := by rw [hrk]
    have hmk : ∀ j, mark p fin rk.2 rk.1 j =
        if j < fin ∧ 2 * q' * (q' + 1) ≤ j ∧ 2 * q' + 1 ∣ j - 2 * q' * (q' + 1) then 1 else p j := by
      intro j
      rw [e1, e2]
      exact mark_spec _ _ _ _ (by omega) j
    -- the condition in terms of the odd number `2j+1`
    have hcond : ∀ j, (2 * q' * (q' + 1) ≤ j ∧ 2 * q' + 1 ∣ j - 2 * q' * (q' + 1)) ↔
        ((2 * q' + 1) * (2 * q' + 1) ≤ 2 * j + 1 ∧ 2 * q' + 1 ∣ 2 * j + 1) := by
      intro j
      constructor
      · rintro ⟨b1, c, hc⟩
        have hj : j = 2 * q' * (q' + 1) + (2 * q' + 1) * c := by omega
        refine ⟨by nlinarith, ⟨2 * q' + 1 + 2 * c, ?_⟩⟩
        rw [hj]
        ring
      · rintro ⟨b1, b2⟩
        have b3 : 2 * q' * (q' + 1) ≤ j := by nlinarith
        refine ⟨b3, ?_⟩
        have b4 : 2 * q' + 1 ∣ 2 * (j - 2 * q' * (q' + 1)) := by
          have : 2 * (j - 2 * q' * (q' + 1)) = (2 * j + 1) - (2 * q' + 1) * (2 * q' + 1) := by
            have : (2 * q' + 1) * (2 * q' + 1) = 2 * (2 * q' * (q' + 1)) + 1 := by ring
            omega
          rw [this]
          exact Nat.dvd_sub b2 (Dvd.intro _ rfl)
        have b5 : Nat.Coprime (2 * q' + 1) 2 := by
          rw [Nat.coprime_two_right]
          exact ⟨q', rfl⟩
        exact b5.dvd_of_dvd_mul_left b4
    -- `2q'+1` is prime, unless `q'` is the end
    have hprime : q' < fin → (2 * q' + 1).Prime := by
      intro hlt
      by_contra hp
      obtain ⟨m, c1, c2, c3, c4, c5⟩ := odd_factor (by omega) hp
      by_cases hmq : m ≤ q
      · have := h2 q' hlt m c1 hmq c3 c4 c5
        omega
      · have h0 := a4 m (by omega) c2
        rcases h1 m with h | ⟨-, -, m', d1, d2, d3, d4, d5⟩
        · exact h0 h
        · rcases (Nat.dvd_prime c3).mp d5 with h | h <;> omega
    refine ih e1 e2 a2 ?_ ?_
    · intro j
      rw [hmk]
      split_ifs with hc
      · right
        refine ⟨rfl, hc.1, q', by omega, le_rfl, ?_, (hcond j).mp hc.2⟩
        apply hprime
        by_contra hge
        have : q' ≤ 2 * q' * (q' + 1) := by nlinarith
        omega
      · rcases h1 j with h | ⟨h, h', m, b1, b2, b3⟩
        · exact Or.inl h
        · exact Or.inr ⟨h, h', m, b1, by omega, b3⟩
    · intro j hj m b1 b2 b3 b4 b5
      rw [hmk]
      split_ifs with hc
      · rfl
      · by_cases hmq : m ≤ q
        · exact h2 j hj m b1 hmq b3 b4 b5
        · by_cases hme : m = q'
          · subst hme
            exact absurd ⟨hj, (hcond j).mpr ⟨b4, b5⟩⟩ hc
          · have h0 := a4 m (by omega) (by omega)
            rcases h1 m with h | ⟨-, -, m', d1, d2, d3, d4, d5⟩
            · exact absurd h h0
            · rcases (Nat.dvd_prime b3).mp d5 with h | h <;> omega
  | case3 p r q k h q' hs hq' =>
    exfalso
    have hz : p fin = 0 := by
      rcases h1 fin with h | ⟨_, h, _⟩
      · exact h
      · omega
    obtain ⟨q'', e, a1, a2, a3, a4⟩ := skip_spec p (fin + 1) q fin (by
      rcases Nat.eq_or_lt_of_le hq with rfl | h
      · exfalso
        rcases Nat.eq_zero_or_pos q with h0 | h0
        · omega
        · have : q * (q + 1) ≥ q := by nlinarith
          nlinarith
      · exact h) (by omega) hz
    rw [hs] at e
    cases e
    omega
  | case4 p r q k h =>
    exact ⟨p, rfl, sieved_of_marked h1 h2 (by omega)⟩

/-! ### the table of differences -/

open Nat in
/-- number of primes below `2s+2` -/
theorem count_le (s : Nat) : Nat.count Nat.Prime (2 * s + 2) ≤ s + 1 := by
  induction s with
  | zero => decide
  | succ s ih =>
    have e : 2 * (s + 1) + 2 = 2 * s + 2 + 1 + 1 := by ring
    rw [e, Nat.count_succ, Nat.count_succ]
    by_cases h0 : s = 0
    · subst h0
      decide
    · have h2 : ¬ (2 * s + 2).Prime := by
        intro h
        rcases h.eq_one_or_self_of_dvd 2 ⟨s + 1, by ring⟩ with h | h <;> omega
      rw [if_neg h2]
      split_ifs <;> omega

/-- the difference before the prime number `i` (from `0`) -/
noncomputable def gap (i : Nat) : Nat :=
  if i = 0 then 2 else Nat.nth Nat.Prime i - Nat.nth Nat.Prime (i - 1)

theorem count_gap_nonprime {a b : Nat} (hab : a ≤ b) (h : ∀ x, a ≤ x → x < b → ¬ x.Prime) :
    Nat.count Nat.Prime b = Nat.count Nat.Prime a := by
  induction b with
  | zero =>
    have : a = 0 := by omega
    rw [this]
  | succ b ih =>
    rcases Nat.eq_or_lt_of_le hab with h' | h'
    · rw [h']
    · rw [Nat.count_succ, if_neg (h b (by omega) (by omega)), Nat.add_zero]
      exact ih (by omega) fun x hx hx' => h x hx (by omega)

theorem nonprime_between {p : Mem} {fin s q' : Nat} (hp : Sieved p fin) (hs : 1 ≤ s) (hq : q' ≤ fin)
    (h : ∀ j, s < j → j < q' → p j ≠ 0) : ∀ x, 2 * s + 2 ≤ x → x < 2 * q' + 1 → ¬ x.Prime := by
  intro x h1 h2 hx
  rcases Nat.even_or_odd' x with ⟨c, hc | hc⟩
  · rcases hx.eq_one_or_self_of_dvd 2 ⟨c, hc⟩ with h | h <;> omega
  · rw [hc] at hx
    exact h c (by omega) (by omega) ((hp.1 c (by omega) (by omega)).mpr hx)

theorem compress_spec (fin : Nat) (p0 : Mem) (hp : Sieved p0 fin) (p : Mem) (r s q : Nat)
    (hsq : s = q) (hs1 : 1 ≤ s) (hsf : s < fin) (hr : r = Nat.count Nat.Prime (2 * s + 2))
    (hs : (2 * s + 1).Prime) (hk : ∀ j, q < j → p j = p0 j)
    (hd : ∀ i, i < r → p i = gap i % 256) :
    ∃ p' s', compress (fin + 1) fin p r s q =
        some (p', Nat.count Nat.Prime (2 * fin), s') ∧
      Nat.count Nat.Prime (2 * s' + 2) = Nat.count Nat.Prime (2 * fin) ∧ s' < fin ∧
      (2 * s' + 1).Prime ∧
      ∀ i, i < Nat.count Nat.Prime (2 * fin) → p' i = gap i % 256 := by
  fun_induction compress (fin + 1) fin p r s q with
  | case1 p r s q hn =>
    have hz : p fin = 0 := by rw [hk fin (by omega)]; exact hp.2 fin le_rfl
    obtain ⟨q', e, -⟩ := skip_spec p (fin + 1) q fin (by omega) (by omega) hz
    rw [hn] at e
    cases e
  | case2 p r s q q' hn hge =>
    have hz : p fin = 0 := by rw [hk fin (by omega)]; exact hp.2 fin le_rfl
    obtain ⟨q'', e, a1, a2, a3, a4⟩ := skip_spec p (fin + 1) q fin (by omega) (by omega) hz
    rw [hn] at e
    cases e
    have hqf : q' = fin := by omega
    have hc : Nat.count Nat.Prime (2 * fin) = Nat.count Nat.Prime (2 * s + 2) := by
      apply count_gap_nonprime (by omega)
      intro x h1 h2
      refine nonprime_between (s := s) (q' := q') hp hs1 a2 ?_ x h1 (by omega)
      intro j h3 h4
      rw [← hk j (by omega)]
      exact a4 j (by omega) h4
    refine ⟨p, s, ?_, hc.symm, hsf, hs, ?_⟩
    · rw [hc, hr]
    · rw [hc, ← hr]
      exact hd
  | case3 p r s q q' hn hge hlt ih =>
    have hz : p fin = 0 := by rw [hk fin (by omega)]; exact hp.2 fin le_rfl
    obtain ⟨q'', e, a1, a2, a3, a4⟩ := skip_spec p (fin + 1) q fin (by omega) (by omega) hz
    rw [hn] at e
    cases e
    have hq'p : (2 * q' + 1).Prime := by
      rw [← hp.1 q' (by omega) (by omega), ← hk q' a1]
      exact a3
    have hnp : ∀ x, 2 * s + 2 ≤ x → x < 2 * q' + 1 → ¬ x.Prime := by
      refine nonprime_between hp hs1 a2 ?_
      intro j h3 h4
      rw [← hk j (by omega)]
      exact a4 j (by omega) h4
    have hc1 : Nat.count Nat.Prime (2 * q' + 1) = r := by
      rw [hr]
      exact count_gap_nonprime (by omega) hnp
    have hc2 : Nat.count Nat.Prime (2 * q' + 2) = r + 1 := by
      have e : 2 * q' + 2 = 2 * q' + 1 + 1 := rfl
      rw [e, Nat.count_succ, if_pos hq'p, hc1]
    have hc3 : Nat.count Nat.Prime (2 * s + 1) + 1 = r := by
      rw [hr]
      have e : 2 * s + 2 = 2 * s + 1 + 1 := rfl
      rw [e, Nat.count_succ (p := Nat.Prime) (n := 2 * s + 1), if_pos hs]
    have n1 : Nat.nth Nat.Prime r = 2 * q' + 1 := by
      rw [← hc1]
      exact Nat.nth_count hq'p
    have n2 : Nat.nth Nat.Prime (r - 1) = 2 * s + 1 := by
      have : r - 1 = Nat.count Nat.Prime (2 * s + 1) := by omega
      rw [this]
      exact Nat.nth_count hs
    have hg : gap r = (q' - s) * 2 := by
      rw [gap, if_neg (by omega), n1, n2]
      omega
    have hrs : r ≤ s + 1 := by
      rw [hr]
      exact count_le s
    refine ih rfl (by omega) (by omega) hc2.symm hq'p ?_ ?_
    · intro j hj
      have : j ≠ r := by omega
      simp only [Mem.put, this, if_false]
      exact hk j (by omega)
    · intro i hi
      by_cases hir : i = r
      · subst hir
        simp [Mem.put, hg]
      · simp only [Mem.put, hir, if_false]
        exact hd i (by omega)
  | case4 p r s q q' hn hge hlt =>
    exfalso
    have hz : p fin = 0 := by rw [hk fin (by omega)]; exact hp.2 fin le_rfl
    obtain ⟨q'', e, a1, a2, a3, a4⟩ := skip_spec p (fin + 1) q fin (by omega) (by omega) hz
    rw [hn] at e
    cases e
    have hrs : r ≤ s + 1 := by
      rw [hr]
      exact count_le s
    omega

/-- The table for every bound: the sieve stays inside its array, and the table consists of the
differences (modulo 256) between consecutive primes below `2*((maxnum+257)/2)`, followed by `0`. -/
theorem init_spec (maxnum : Nat) :
    ∃ t, init maxnum = some t ∧
      t.nprimes = Nat.count Nat.Prime (2 * ((maxnum + 257) / 2)) ∧
      0 < t.nprimes ∧ t.biggest = Nat.nth Nat.Prime (t.nprimes - 1) ∧
      (∀ i < t.nprimes, t.diff i = gap i % 256) ∧ t.diff t.nprimes = 0 := by
  have hsz : 128 ≤ (maxnum + 257) / 2 := by omega
  obtain ⟨p, e1, hp⟩ := sieve_spec ((maxnum + 257) / 2) (fun _ => 0) 0 0 1 (by ring) (by ring)
    (by omega) (fun j => Or.inl rfl) (fun j _ m h1 h2 => by omega)
  have hg1 : gap 1 = 1 := by
    rw [gap, if_neg (by omega), Nat.nth_prime_zero_eq_two, Nat.nth_prime_one_eq_three]
  obtain ⟨p', s', e2, b1, b2, b3, b4⟩ := compress_spec ((maxnum + 257) / 2) p hp
    ((p.put 0 2).put 1 1) 2 1 1 rfl le_rfl (by omega) (by decide) Nat.prime_three
    (fun j hj => by
      have h1 : j ≠ 0 := by omega
      have h2 : j ≠ 1 := by omega
      simp [Mem.put, h1, h2])
    (fun i hi => by
      have : i = 0 ∨ i = 1 := by omega
      rcases this with rfl | rfl
      · simp [Mem.put, gap]
      · simp [Mem.put, hg1])
  have hlt : Nat.count Nat.Prime (2 * ((maxnum + 257) / 2)) < (maxnum + 257) / 2 + 1 := by
    rw [← b1]
    have := count_le s'
    omega
  refine ⟨⟨p'.put (Nat.count Nat.Prime (2 * ((maxnum + 257) / 2))) 0,
    Nat.count Nat.Prime (2 * ((maxnum + 257) / 2)), s' * 2 + 1⟩, ?_, rfl, ?_, ?_, ?_, ?_⟩
  · simp only [init, e1, e2]
    rw [if_neg (by omega), if_pos hlt]
  · simp only
    rw [← b1]
    have e : 2 * s' + 2 = 2 * s' + 1 + 1 := rfl
    rw [e, Nat.count_succ, if_pos b3]
    omega
  · simp only
    rw [← b1]
    have e : 2 * s' + 2 = 2 * s' + 1 + 1 := rfl
    rw [e, Nat.count_succ, if_pos b3, Nat.add_sub_cancel, Nat.nth_count b3]
    ring
  · intro i hi
    simp only at hi ⊢
    have : i ≠ Nat.count Nat.Prime (2 * ((maxnum + 257) / 2)) := by omega
    simp only [Mem.put, this, if_false]
    exact b4 i hi
  · simp [Mem.put]

end Eclib.Primes
