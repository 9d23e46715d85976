import Verif.Newf.EigModel
import Mathlib.NumberTheory.PrimeCounting
import Mathlib.Order.Defs.LinearOrder
import Mathlib.Tactic.Linarith
import Mathlib.Tactic.IntervalCases
import Mathlib.Algebra.Order.Ring.Int

/-!
# C108: the lists of eigenvalues and the order of the newforms
-/

namespace Eclib.Newf

/-! ## Specification -/

namespace EigSpec

/-- the eigenvalue with which the form is published at a prime `p`: `e p` is the eigenvalue of `T_p` if `p ∤ n` and of `W_p` if
`p ∣ n` -/
def fixed (n : ℕ) (e : ℕ → ℤ) (p : ℕ) : ℤ :=
  if p ∣ n then (if p * p ∣ n then 0 else - e p) else e p

/-- the list of the values of `g` at the first `m` primes -/
def AtPrimes (g : ℕ → ℤ) (m : ℕ) (l : List ℤ) : Prop :=
  l.length = m ∧ ∀ i < m, l[i]? = some (g (Nat.nth Nat.Prime i))

/-- `plist` are the primes dividing `n` in increasing order -/
def IsPlist (n : ℕ) (plist : List ℕ) : Prop :=
  plist.Pairwise (· < ·) ∧ ∀ q, q ∈ plist ↔ q.Prime ∧ q ∣ n

/-- `v` comes before `w` in the lexicographic order given by `r` -/
def LexBefore (r : ℤ → ℤ → Prop) (v w : List ℤ) : Prop :=
  ∃ (i : ℕ) (a b : ℤ), (∀ j < i, v[j]? = w[j]?) ∧ v[i]? = some a ∧ w[i]? = some b ∧ r a b

/-- the order 0, 1, -1, 2, -2, … -/
def OldOrder (a b : ℤ) : Prop := |a| < |b| ∨ |a| = |b| ∧ b < a

end EigSpec

open EigSpec

/-! ## Lists of prime divisors -/

/-- the prime divisors from the `i`-th prime on -/
noncomputable def rest (plist : List ℕ) (i : ℕ) : List ℕ := plist.filter (fun q => decide (Nat.nth Nat.Prime i ≤ q))

theorem nthp (i : ℕ) : (Nat.nth Nat.Prime i).Prime := Nat.prime_nth_prime i

theorem nth_succ_le {q : ℕ} (hq : q.Prime) (i : ℕ) :
    Nat.nth Nat.Prime (i + 1) ≤ q ↔ Nat.nth Nat.Prime i < q := by
  constructor
  · intro h
    exact lt_of_lt_of_le (Nat.nth_strictMono Nat.infinite_setOfPred_prime (Nat.lt_succ_self i)) h
  · intro h
    obtain ⟨j, hj⟩ : ∃ j, Nat.nth Nat.Prime j = q := by
      have := Nat.range_nth_of_infinite Nat.infinite_setOfPred_prime
      have hq' : q ∈ Set.range (Nat.nth Nat.Prime) := by rw [this]; exact hq
      exact hq'
    rw [← hj] at h ⊢
    have hm := Nat.nth_strictMono Nat.infinite_setOfPred_prime
    exact hm.monotone (hm.lt_iff_lt.1 h)

theorem rest_zero {n : ℕ} {pl : List ℕ} (h : IsPlist n pl) : rest pl 0 = pl := by
  unfold rest
  rw [List.filter_eq_self]
  intro q hq
  have := ((h.2 q).1 hq).1.two_le
  simpa [Nat.nth_prime_zero_eq_two] using this

theorem sorted_ext {l m : List ℕ} (hl : l.Pairwise (· < ·)) (hm : m.Pairwise (· < ·))
    (h : ∀ q, q ∈ l ↔ q ∈ m) : l = m := by
  have nl : l.Nodup := hl.imp (fun h => Nat.ne_of_lt h)
  have nm : m.Nodup := hm.imp (fun h => Nat.ne_of_lt h)
  exact ((List.perm_ext_iff_of_nodup nl nm).2 h).eq_of_pairwise (fun a b _ _ h1 h2 => by omega) hl hm

theorem rest_pos {n : ℕ} {pl : List ℕ} (h : IsPlist n pl) {i : ℕ} (hd : Nat.nth Nat.Prime i ∣ n) :
    rest pl i = Nat.nth Nat.Prime i :: rest pl (i + 1) := by
  have hp1 : (rest pl (i+1)).Pairwise (· < ·) := h.1.filter _
  refine sorted_ext (h.1.filter _) (List.pairwise_cons.2 ⟨?_, hp1⟩) ?_
  · intro q hq
    unfold rest at hq
    rw [List.mem_filter, decide_eq_true_eq] at hq
    exact (nth_succ_le ((h.2 q).1 hq.1).1 i).1 hq.2
  · intro q
    unfold rest
    simp only [List.mem_filter, List.mem_cons, decide_eq_true_eq]
    constructor
    · rintro ⟨h1, h2⟩
      rcases h2.eq_or_lt with h3 | h3
      · exact Or.inl h3.symm
      · exact Or.inr ⟨h1, (nth_succ_le ((h.2 q).1 h1).1 i).2 h3⟩
    · rintro (h1 | ⟨h1, h2⟩)
      · subst h1
        exact ⟨(h.2 _).2 ⟨nthp i, hd⟩, le_refl _⟩
      · exact ⟨h1, ((nth_succ_le ((h.2 q).1 h1).1 i).1 h2).le⟩

theorem rest_neg {n : ℕ} {pl : List ℕ} (h : IsPlist n pl) {i : ℕ} (hd : ¬ Nat.nth Nat.Prime i ∣ n) :
    rest pl i = rest pl (i + 1) := by
  refine sorted_ext (h.1.filter _) (h.1.filter _) ?_
  intro q
  unfold rest
  simp only [List.mem_filter, decide_eq_true_eq]
  refine and_congr_right (fun h1 => ?_)
  rw [nth_succ_le ((h.2 q).1 h1).1 i]
  constructor
  · intro h2
    rcases h2.eq_or_lt with h3 | h3
    · exact absurd (h3 ▸ ((h.2 q).1 h1).2) hd
    · exact h3
  · exact le_of_lt

theorem not_dvd_of_rest_nil {n : ℕ} {pl : List ℕ} (h : IsPlist n pl) {i : ℕ} (hr : rest pl i = []) {j : ℕ}
    (hj : i ≤ j) : ¬ Nat.nth Nat.Prime j ∣ n := by
  intro hd
  have hm : Nat.nth Nat.Prime j ∈ rest pl i := by
    unfold rest
    rw [List.mem_filter, decide_eq_true_eq]
    exact ⟨(h.2 _).2 ⟨nthp j, hd⟩, (Nat.nth_strictMono Nat.infinite_setOfPred_prime).monotone hj⟩
  rw [hr] at hm
  exact absurd hm (by simp)

/-! ## Lists at the primes from the `i`-th on -/

/-- the list of values at the primes from the `i`-th on -/
def From (g : ℕ → ℤ) (i : ℕ) (l : List ℤ) : Prop := ∀ j a, l[j]? = some a → a = g (Nat.nth Nat.Prime (i + j))

theorem From.head {g : ℕ → ℤ} {i : ℕ} {a : ℤ} {l : List ℤ} (h : From g i (a :: l)) : a = g (Nat.nth Nat.Prime i) :=
  h 0 a rfl

theorem From.tail {g : ℕ → ℤ} {i : ℕ} {a : ℤ} {l : List ℤ} (h : From g i (a :: l)) : From g (i + 1) l := by
  intro j b hb
  have := h (j+1) b (by simpa using hb)
  rwa [show i + (j + 1) = i + 1 + j by omega] at this

theorem From.cons {g : ℕ → ℤ} {i : ℕ} {a : ℤ} {l : List ℤ} (ha : a = g (Nat.nth Nat.Prime i)) (h : From g (i + 1) l) :
    From g i (a :: l) := by
  intro j b hb
  cases j with
  | zero => simp at hb; rw [← hb]; exact ha
  | succ j =>
    have := h j b (by simpa using hb)
    rwa [show i + (j + 1) = i + 1 + j by omega]

theorem atPrimes_iff {g : ℕ → ℤ} {m : ℕ} {l : List ℤ} : AtPrimes g m l ↔ l.length = m ∧ From g 0 l := by
  unfold AtPrimes From
  refine and_congr_right (fun hl => ?_)
  constructor
  · intro h j a ha
    have hj : j < m := hl ▸ (List.getElem?_eq_some_iff.1 ha).1
    rw [h j hj] at ha
    simp only [Option.some.injEq] at ha
    rw [zero_add]; exact ha.symm
  · intro h i hi
    rw [← hl] at hi
    rw [List.getElem?_eq_getElem hi]
    have := h i _ (List.getElem?_eq_getElem hi)
    rw [zero_add] at this
    rw [this]

theorem from_ext {g : ℕ → ℤ} {i : ℕ} {l m : List ℤ} (hl : From g i l) (hm : From g i m) (h : l.length = m.length) :
    l = m := by
  apply List.ext_getElem h
  intro j h1 h2
  rw [hl j _ (List.getElem?_eq_getElem h1), hm j _ (List.getElem?_eq_getElem h2)]

/-- the values read from `primevar` are the primes -/
def PrOk (pr : ℕ → ℕ) (m : ℕ) : Prop := ∀ i < m, pr i = Nat.nth Nat.Prime i

theorem fixed_of_not_dvd {n : ℕ} {e : ℕ → ℤ} {p : ℕ} (h : ¬ p ∣ n) : fixed n e p = e p := if_neg h

theorem from_fixed_of_nil {n : ℕ} {pl : List ℕ} (h : IsPlist n pl) {e : ℕ → ℤ} {i : ℕ} {l : List ℤ}
    (hr : rest pl i = []) : From (fixed n e) i l ↔ From e i l := by
  unfold From
  refine forall_congr' (fun j => forall_congr' (fun a => imp_congr_right (fun _ => ?_)))
  rw [fixed_of_not_dvd (not_dvd_of_rest_nil h hr (by omega))]

theorem fixGo_spec {n : ℕ} {pl : List ℕ} (h : IsPlist n pl) {e : ℕ → ℤ} {pr : ℕ → ℕ} (l : List ℤ) :
    ∀ i, From e i l → PrOk pr (i + l.length) →
      From (fixed n e) i (fixGo n pr i l (rest pl i).length).1 ∧
      (fixGo n pr i l (rest pl i).length).1.length = l.length ∧
      ∃ A B, rest pl i = A ++ B ∧ (fixGo n pr i l (rest pl i).length).2 = A.map e := by
  induction l with
  | nil =>
    intro i _ _
    have : fixGo n pr i [] (rest pl i).length = ([], []) := by unfold fixGo; rfl
    rw [this]
    exact ⟨fun j a ha => by simp at ha, rfl, [], rest pl i, rfl, rfl⟩
  | cons a l ih =>
    intro i hf hpr
    have hpi : pr i = Nat.nth Nat.Prime i := hpr i (by simp)
    have ih' := ih (i + 1) hf.tail (fun j hj => hpr j (by simp at hj ⊢; omega))
    rcases hk : rest pl i with _ | ⟨q, t⟩
    · rw [← from_fixed_of_nil h hk] at hf
      exact ⟨hf, rfl, [], [], rfl, rfl⟩
    · by_cases hd : Nat.nth Nat.Prime i ∣ n
      · have hr := rest_pos h hd
        rw [hk] at hr
        obtain ⟨hq, ht⟩ := List.cons.inj hr
        rw [← ht] at ih'
        obtain ⟨i1, i2, A, B, i3, i4⟩ := ih'
        simp only [List.length_cons, fixGo, hpi, if_pos hd]
        refine ⟨From.cons ?_ i1, by simp [i2], q :: A, B, by rw [i3]; rfl, ?_⟩
        · unfold fixed; rw [if_pos hd, ← hf.head]
        · rw [i4, List.map_cons, hq, ← hf.head]
      · have hr := rest_neg h hd
        rw [hk] at hr
        rw [← hr] at ih'
        obtain ⟨i1, i2, A, B, i3, i4⟩ := ih'
        simp only [List.length_cons] at i1 i2 i4
        simp only [List.length_cons, fixGo, hpi, if_neg hd]
        exact ⟨From.cons (by rw [fixed_of_not_dvd hd]; exact hf.head) i1, by simp [i2], A, B, i3, i4⟩

theorem unfixGo_spec {n : ℕ} {pl : List ℕ} (h : IsPlist n pl) {e : ℕ → ℤ} {pr : ℕ → ℕ} (l : List ℤ) :
    ∀ i, From (fixed n e) i l → PrOk pr (i + l.length) →
      From e i (unfixGo n pr i l ((rest pl i).map e)) ∧
      (unfixGo n pr i l ((rest pl i).map e)).length = l.length := by
  induction l with
  | nil =>
    intro i _ _
    have : unfixGo n pr i [] ((rest pl i).map e) = [] := by unfold unfixGo; rfl
    rw [this]
    exact ⟨fun j a ha => by simp at ha, rfl⟩
  | cons a l ih =>
    intro i hf hpr
    have hpi : pr i = Nat.nth Nat.Prime i := hpr i (by simp)
    have ih' := ih (i + 1) hf.tail (fun j hj => hpr j (by simp at hj ⊢; omega))
    rcases hk : rest pl i with _ | ⟨q, t⟩
    · rw [from_fixed_of_nil h hk] at hf
      exact ⟨hf, rfl⟩
    · by_cases hd : Nat.nth Nat.Prime i ∣ n
      · have hr := rest_pos h hd
        rw [hk] at hr
        obtain ⟨hq, ht⟩ := List.cons.inj hr
        rw [← ht] at ih'
        simp only [List.map_cons, unfixGo, hpi, if_pos hd]
        exact ⟨From.cons (by rw [hq]) ih'.1, by simp [ih'.2]⟩
      · have hr := rest_neg h hd
        rw [hk] at hr
        rw [← hr, List.map_cons] at ih'
        simp only [List.map_cons, unfixGo, hpi, if_neg hd]
        exact ⟨From.cons (by rw [← fixed_of_not_dvd (e := e) hd]; exact hf.head) ih'.1, by simp [ih'.2]⟩

theorem refixGo_eq (n : ℕ) (pr : ℕ → ℕ) (l : List ℤ) : ∀ i k, refixGo n pr i l k = (fixGo n pr i l k).1 := by
  induction l with
  | nil => intro i k; unfold refixGo fixGo; rfl
  | cons a l ih =>
    intro i k
    cases k with
    | zero => rfl
    | succ k =>
      simp only [refixGo, fixGo]
      split
      · rw [ih]
      · rw [ih]

/-- **C108** (`fixup_eigs`): from the list of the eigenvalues at the first primes, of `T_p` or of `W_p`, the function makes the
list of the published `a_p`, the list of all eigenvalues of `W_q` in the order of the primes dividing the level, and the
sign of the functional equation, minus the product of the eigenvalues of the `W_q`. -/
theorem C108_fixup {n : ℕ} {pl : List ℕ} (h : IsPlist n pl) {e : ℕ → ℤ} {wq : ℕ → ℤ} {pr : ℕ → ℕ} {m : ℕ} {ap : List ℤ}
    (hpr : PrOk pr m) (hap : AtPrimes e m ap) (hw : ∀ q ∈ pl, wq q = e q) :
    AtPrimes (fixed n e) m (fixupEigs n pr pl wq ap).1 ∧
      (fixupEigs n pr pl wq ap).2.1 = pl.map e ∧ (fixupEigs n pr pl wq ap).2.2 = -(pl.map e).prod := by
  rw [atPrimes_iff] at hap ⊢
  obtain ⟨s1, s2, A, B, s3, s4⟩ := fixGo_spec h ap 0 hap.2 (by rw [zero_add, hap.1]; exact hpr)
  rw [rest_zero h] at s1 s2 s3 s4
  have haq : (fixupEigs n pr pl wq ap).2.1 = pl.map e := by
    show (fixGo n pr 0 ap pl.length).2 ++ (pl.drop (fixGo n pr 0 ap pl.length).2.length).map wq = _
    rw [s4, List.length_map]
    have hB : pl.drop A.length = B := by rw [s3]; simp
    rw [hB]
    conv_rhs => rw [s3]
    rw [List.map_append]
    congr 1
    exact List.map_congr_left (fun q hq => hw q (by rw [s3]; exact List.mem_append_right _ hq))
  refine ⟨⟨by rw [← hap.1]; exact s2, s1⟩, haq, ?_⟩
  have h3 : (fixupEigs n pr pl wq ap).2.2 = (fixupEigs n pr pl wq ap).2.1.foldl (· * ·) (-1) := rfl
  rw [h3, haq]
  have hfold : ∀ (l : List ℤ) (a : ℤ), l.foldl (· * ·) a = a * l.prod := by
    intro l
    induction l with
    | nil => intro a; simp
    | cons b l ih => intro a; rw [List.foldl_cons, ih, List.prod_cons]; ring
  rw [hfold]; ring

/-- **C108** (`unfix_eigs`, `refix_eigs`, `eiglist(f,0)`): from the published lists the first gives back the eigenvalues of `T_p` and
`W_p` at the first primes, the second gives the published list again. -/
theorem C108_unfix {n : ℕ} {pl : List ℕ} (h : IsPlist n pl) {e : ℕ → ℤ} {pr : ℕ → ℕ} {m : ℕ} {ap : List ℤ}
    (hpr : PrOk pr m) (hap : AtPrimes (fixed n e) m ap) :
    AtPrimes e m (unfixEigs n pr ap (pl.map e)) ∧ AtPrimes e m (eiglistNew n pr ap (pl.map e)) ∧
      refixEigs n pr pl.length (unfixEigs n pr ap (pl.map e)) = ap := by
  rw [atPrimes_iff] at hap
  have hu := unfixGo_spec h ap 0 hap.2 (by rw [zero_add, hap.1]; exact hpr)
  rw [rest_zero h] at hu
  have hA : AtPrimes e m (unfixEigs n pr ap (pl.map e)) := atPrimes_iff.2 ⟨by rw [← hap.1]; exact hu.2, hu.1⟩
  refine ⟨hA, hA, ?_⟩
  have hf := fixGo_spec (pr := pr) h (unfixEigs n pr ap (pl.map e)) 0 hu.1
    (by rw [zero_add]; unfold unfixEigs; rw [hu.2, hap.1]; exact hpr)
  rw [rest_zero h] at hf
  unfold refixEigs
  rw [refixGo_eq]
  exact from_ext hf.1 hap.2 (by rw [hf.2.1]; exact hu.2)

theorem aqGo_spec {n : ℕ} {pl : List ℕ} (h : IsPlist n pl) {e : ℕ → ℤ} {pr : ℕ → ℕ} (l : List ℤ) :
    ∀ i, From e i l → PrOk pr (i + l.length) →
      ((∀ q ∈ rest pl i, q < Nat.nth Nat.Prime (i + l.length)) →
        aqGo n pr i l (rest pl i).length = some ((rest pl i).map e)) ∧
      ((∃ q ∈ rest pl i, Nat.nth Nat.Prime (i + l.length) ≤ q) → aqGo n pr i l (rest pl i).length = none) := by
  induction l with
  | nil =>
    intro i _ _
    constructor
    · intro hq
      rcases hk : rest pl i with _ | ⟨q, t⟩
      · rfl
      · have hm : q ∈ rest pl i := by rw [hk]; simp
        have h1 := hq q hm
        unfold rest at hm
        rw [List.mem_filter, decide_eq_true_eq] at hm
        simp at h1
        omega
    · rintro ⟨q, hq, _⟩
      rcases hk : rest pl i with _ | ⟨q, t⟩
      · rw [hk] at hq; simp at hq
      · rfl
  | cons a l ih =>
    intro i hf hpr
    have hpi : pr i = Nat.nth Nat.Prime i := hpr i (by simp)
    have ih' := ih (i + 1) hf.tail (fun j hj => hpr j (by simp at hj ⊢; omega))
    have hlen : i + (a :: l).length = i + 1 + l.length := by simp; omega
    rw [hlen]
    rcases hk : rest pl i with _ | ⟨q, t⟩
    · exact ⟨fun _ => rfl, fun ⟨q, hq, _⟩ => by simp at hq⟩
    · by_cases hd : Nat.nth Nat.Prime i ∣ n
      · have hr := rest_pos h hd
        rw [hk] at hr
        obtain ⟨hq, ht⟩ := List.cons.inj hr
        rw [← ht] at ih'
        simp only [List.length_cons, aqGo, hpi, if_pos hd]
        constructor
        · intro hall
          rw [ih'.1 (fun r hr => hall r (List.mem_cons_of_mem _ hr)), Option.map_some, List.map_cons, hq, ← hf.head]
        · rintro ⟨r, hr1, hr2⟩
          rcases List.mem_cons.1 hr1 with h1 | h1
          · exfalso
            rw [h1, hq] at hr2
            have : Nat.nth Nat.Prime i < Nat.nth Nat.Prime (i + 1 + l.length) := Nat.nth_strictMono Nat.infinite_setOfPred_prime (show i < i + 1 + l.length by omega)
            omega
          · rw [ih'.2 ⟨r, h1, hr2⟩]; rfl
      · have hr := rest_neg h hd
        rw [hk] at hr
        rw [← hr] at ih'
        simp only [List.length_cons] at ih'
        simp only [List.length_cons, aqGo, hpi, if_neg hd]
        exact ih'

/-- **C108** (`aqlist`): the eigenvalues of the `W_q` are extracted from the list when all primes dividing the level are among
its primes; otherwise the code runs past the end of the list. -/
theorem C108_aqlist {n : ℕ} {pl : List ℕ} (h : IsPlist n pl) {e : ℕ → ℤ} {pr : ℕ → ℕ} {m : ℕ} {ap : List ℤ}
    (hpr : PrOk pr m) (hap : AtPrimes e m ap) :
    ((∀ q ∈ pl, q < Nat.nth Nat.Prime m) → aqlistOf n pr pl.length ap = some (pl.map e)) ∧
      ((∃ q ∈ pl, Nat.nth Nat.Prime m ≤ q) → aqlistOf n pr pl.length ap = none) := by
  rw [atPrimes_iff] at hap
  have := aqGo_spec h ap 0 hap.2 (by rw [zero_add, hap.1]; exact hpr)
  rw [rest_zero h, zero_add, hap.1] at this
  exact this

theorem goodAp_length {n : ℕ} {pl : List ℕ} (h : IsPlist n pl) {pr : ℕ → ℕ} (l : List ℤ) :
    ∀ i, PrOk pr (i + l.length) →
      (goodAp n pr i l).length + (rest pl i).length = l.length + (rest pl (i + l.length)).length := by
  induction l with
  | nil => intro i _; simp [goodAp]
  | cons a l ih =>
    intro i hpr
    have hpi : pr i = Nat.nth Nat.Prime i := hpr i (by simp)
    have ih' := ih (i + 1) (fun j hj => hpr j (by simp at hj ⊢; omega))
    have hlen : i + (a :: l).length = i + 1 + l.length := by simp; omega
    rw [hlen]
    by_cases hd : Nat.nth Nat.Prime i ∣ n
    · rw [rest_pos h hd]
      simp only [goodAp, hpi, if_pos hd, List.length_cons]
      omega
    · rw [rest_neg h hd]
      simp only [goodAp, hpi, if_neg hd, List.length_cons]
      omega

theorem goodAp_map {n : ℕ} {e : ℕ → ℤ} {pr : ℕ → ℕ} (l : List ℤ) :
    ∀ i, From e i l → PrOk pr (i + l.length) →
      goodAp n pr i l = (((List.range' i l.length).map (Nat.nth Nat.Prime)).filter (fun p => decide (¬ p ∣ n))).map e := by
  induction l with
  | nil => intro i _ _; rfl
  | cons a l ih =>
    intro i hf hpr
    have hpi : pr i = Nat.nth Nat.Prime i := hpr i (by simp)
    have ih' := ih (i + 1) hf.tail (fun j hj => hpr j (by simp at hj ⊢; omega))
    rw [List.length_cons, List.range'_succ, List.map_cons, List.filter_cons]
    by_cases hd : Nat.nth Nat.Prime i ∣ n
    · simp only [goodAp, hpi, if_pos hd]
      rw [if_neg (by simpa using hd)]
      exact ih'
    · simp only [goodAp, hpi, if_neg hd]
      rw [if_pos (by simpa using hd), List.map_cons, ← hf.head, ih']

/-- **C108** (`eiglist(f,1)`): first the eigenvalues of the `W_q`, then the `a_p` at the good primes, when all primes dividing
the level are among the primes of `aplist`; otherwise the code writes past the end of its vector. -/
theorem C108_eiglist_partial {n : ℕ} {pl : List ℕ} (h : IsPlist n pl) {e : ℕ → ℤ} {pr : ℕ → ℕ} {m : ℕ} {ap : List ℤ}
    (hpr : PrOk pr m) (hap : AtPrimes (fixed n e) m ap) :
    ((∀ q ∈ pl, q < Nat.nth Nat.Prime m) →
      eiglistOld n pr ap (pl.map e) =
        some ((pl ++ ((List.range m).map (Nat.nth Nat.Prime)).filter (fun p => decide (¬ p ∣ n))).map e)) ∧
      ((∃ q ∈ pl, Nat.nth Nat.Prime m ≤ q) → eiglistOld n pr ap (pl.map e) = none) := by
  rw [atPrimes_iff] at hap
  have hpr' : PrOk pr (0 + ap.length) := by rw [zero_add, hap.1]; exact hpr
  have hl := goodAp_length h ap 0 hpr'
  rw [rest_zero h, zero_add, hap.1] at hl
  constructor
  · intro hall
    have hr : rest pl m = [] := by
      unfold rest
      rw [List.filter_eq_nil_iff]
      intro q hq
      have := hall q hq
      simpa using this
    rw [hr] at hl
    simp only [List.length_nil, add_zero] at hl
    unfold eiglistOld
    have hlen : (pl.map e ++ goodAp n pr 0 ap).length = ap.length := by
      rw [List.length_append, List.length_map, hap.1]; omega
    simp only []
    rw [if_pos hlen.le, hlen, Nat.sub_self, List.replicate_zero, List.append_nil]
    rw [goodAp_map ap 0 hap.2 hpr', hap.1, ← List.range_eq_range', List.map_append]
    congr 2
    refine List.map_congr_left (fun p hp => ?_)
    rw [List.mem_filter, decide_eq_true_eq] at hp
    exact fixed_of_not_dvd hp.2
  · rintro ⟨q, hq, hle⟩
    have hr : 0 < (rest pl m).length := by
      apply List.length_pos_of_mem (a := q)
      unfold rest
      rw [List.mem_filter, decide_eq_true_eq]
      exact ⟨hq, hle⟩
    unfold eiglistOld
    simp only []
    rw [if_neg]
    rw [List.length_append, List.length_map, hap.1]
    omega

/-! ## The order of the newforms -/

theorem sgn_cases (a : ℤ) : (sgn a = 1 ∧ 0 < a) ∨ (sgn a = 0 ∧ a = 0) ∨ (sgn a = -1 ∧ a < 0) := by
  unfold sgn
  split
  · left; exact ⟨rfl, by assumption⟩
  · split
    · right; right; exact ⟨rfl, by assumption⟩
    · right; left; exact ⟨rfl, by omega⟩

/-- the order of eigenvalues -/
def ordOf (old : Bool) : ℤ → ℤ → Prop := if old then OldOrder else (· < ·)

theorem lessAp_cases (a b : ℤ) (old : Bool) :
    (lessAp a b old = 1 ∧ ordOf old a b) ∨ (lessAp a b old = 0 ∧ a = b) ∨ (lessAp a b old = -1 ∧ ordOf old b a) := by
  cases old with
  | false =>
    have h : lessAp a b false = sgn (b - a) := rfl
    rw [h]
    simp only [ordOf, Bool.false_eq_true, if_false]
    rcases sgn_cases (b - a) with h | h | h
    · left; exact ⟨h.1, by omega⟩
    · right; left; exact ⟨h.1, by omega⟩
    · right; right; exact ⟨h.1, by omega⟩
  | true =>
    simp only [ordOf, if_true, OldOrder, lessAp, Bool.not_true, Bool.false_eq_true, if_false]
    by_cases hab : a = b
    · right; left; simp [hab]
    · rw [if_neg hab]
      have ha : ((a.natAbs : ℕ) : ℤ) = |a| := Int.natCast_natAbs a
      have hb : ((b.natAbs : ℕ) : ℤ) = |b| := Int.natCast_natAbs b
      rw [ha, hb]
      rcases sgn_cases (|b| - |a|) with h | h | h
      · rw [h.1, if_pos (by decide)]
        left; exact ⟨rfl, Or.inl (by omega)⟩
      · rw [h.1, if_neg (by decide)]
        have he : |a| = |b| := by omega
        rcases sgn_cases (a - b) with h' | h' | h'
        · left; exact ⟨h'.1, Or.inr ⟨he, by omega⟩⟩
        · omega
        · right; right; exact ⟨h'.1, Or.inr ⟨he.symm, by omega⟩⟩
      · rw [h.1, if_pos (by decide)]
        right; right; exact ⟨rfl, Or.inl (by omega)⟩

theorem lexBefore_cons {r : ℤ → ℤ → Prop} {a b : ℤ} {v w : List ℤ} (h : r a b) : LexBefore r (a :: v) (b :: w) :=
  ⟨0, a, b, fun j hj => by omega, rfl, rfl, h⟩

theorem lexBefore_tail {r : ℤ → ℤ → Prop} {a : ℤ} {v w : List ℤ} (h : LexBefore r v w) :
    LexBefore r (a :: v) (a :: w) := by
  obtain ⟨i, x, y, h1, h2, h3, h4⟩ := h
  refine ⟨i + 1, x, y, ?_, by simpa using h2, by simpa using h3, h4⟩
  intro j hj
  cases j with
  | zero => rfl
  | succ j => simpa using h1 j (by omega)

/-- **C108** (`less_apvec`): for vectors of the same length the function returns 1 if the first comes before the second in the
lexicographic order, -1 if it comes after it, 0 if they are equal. -/
theorem C108_less_apvec (old : Bool) (v w : List ℤ) (h : v.length = w.length) :
    (lessApvec old v w = some 1 ∧ LexBefore (ordOf old) v w) ∨ (lessApvec old v w = some 0 ∧ v = w) ∨
      (lessApvec old v w = some (-1) ∧ LexBefore (ordOf old) w v) := by
  induction v generalizing w with
  | nil =>
    cases w with
    | nil => right; left; exact ⟨rfl, rfl⟩
    | cons b w => simp at h
  | cons a v ih =>
    cases w with
    | nil => simp at h
    | cons b w =>
      simp only [lessApvec]
      rcases lessAp_cases a b old with ⟨h1, h2⟩ | ⟨h1, h2⟩ | ⟨h1, h2⟩
      · rw [h1, if_pos (by decide)]
        left; exact ⟨rfl, lexBefore_cons h2⟩
      · rw [h1, if_neg (by decide)]
        subst h2
        rcases ih w (by simpa using h) with ⟨g1, g2⟩ | ⟨g1, g2⟩ | ⟨g1, g2⟩
        · left; exact ⟨g1, lexBefore_tail g2⟩
        · right; left; exact ⟨g1, by rw [g2]⟩
        · right; right; exact ⟨g1, lexBefore_tail g2⟩
      · rw [h1, if_pos (by decide)]
        right; right; exact ⟨rfl, lexBefore_cons h2⟩

theorem ordOf_irrefl (old : Bool) (a : ℤ) : ¬ ordOf old a a := by
  cases old
  · simp [ordOf]
  · simp [ordOf, OldOrder]

theorem ordOf_trans (old : Bool) {a b c : ℤ} (h1 : ordOf old a b) (h2 : ordOf old b c) : ordOf old a c := by
  cases old
  · simp only [ordOf, Bool.false_eq_true, if_false] at *; omega
  · simp only [ordOf, if_true, OldOrder] at *; omega

theorem lex_irrefl {old : Bool} {v : List ℤ} : ¬ LexBefore (ordOf old) v v := by
  rintro ⟨i, a, b, _, h2, h3, h4⟩
  rw [h2] at h3
  simp only [Option.some.injEq] at h3
  subst h3
  exact ordOf_irrefl old _ h4

theorem lex_trans {old : Bool} {u v w : List ℤ} (h1 : LexBefore (ordOf old) u v) (h2 : LexBefore (ordOf old) v w) :
    LexBefore (ordOf old) u w := by
  obtain ⟨i, a, b, p1, p2, p3, p4⟩ := h1
  obtain ⟨k, c, d, q1, q2, q3, q4⟩ := h2
  rcases lt_trichotomy i k with hlt | heq | hgt
  · exact ⟨i, a, b, fun j hj => (p1 j hj).trans (q1 j (by omega)), p2, by rw [← q1 i hlt]; exact p3, p4⟩
  · subst heq
    rw [p3] at q2
    simp only [Option.some.injEq] at q2
    subst q2
    exact ⟨i, a, d, fun j hj => (p1 j hj).trans (q1 j hj), p2, q3, ordOf_trans old p4 q4⟩
  · exact ⟨k, c, d, fun j hj => (p1 j (by omega)).trans (q1 j hj), by rw [p1 k hgt]; exact q2, q3, q4⟩

/-- **C108** (`less_newform_new`): on forms with lists of the same length the comparison is defined, is the
lexicographic order of the lists of `a_p`, and is a strict weak order, as `std::sort` requires; forms which are not comparable
have the same `a_p`. -/
theorem C108_newLess (f g : List ℤ × List ℤ) (h : f.2.length = g.2.length) :
    ∃ b, newLess f g = some b ∧ (b = true ↔ LexBefore (· < ·) f.2 g.2) ∧
      (newLess g f = some false → b = false → f.2 = g.2) := by
  unfold newLess
  have e : (ordOf false) = ((· < ·) : ℤ → ℤ → Prop) := rfl
  rcases C108_less_apvec false f.2 g.2 h with ⟨h1, h2⟩ | ⟨h1, h2⟩ | ⟨h1, h2⟩ <;> rw [h1]
  · refine ⟨true, rfl, ⟨fun _ => e ▸ h2, fun _ => rfl⟩, fun _ hb => by simp at hb⟩
  · refine ⟨false, rfl, ⟨fun hb => by simp at hb, fun hb => ?_⟩, fun _ _ => h2⟩
    rw [h2, ← e] at hb
    exact absurd hb lex_irrefl
  · refine ⟨false, rfl, ⟨fun hb => by simp at hb, fun hb => ?_⟩, fun hg _ => ?_⟩
    · rw [← e] at hb
      exact absurd (lex_trans hb h2) lex_irrefl
    · rcases C108_less_apvec false g.2 f.2 h.symm with ⟨g1, _⟩ | ⟨_, g2⟩ | ⟨_, g2⟩
      · rw [g1] at hg; exact absurd hg (by decide)
      · exact g2.symm
      · exact absurd (lex_trans g2 h2) lex_irrefl

/-- **C108** (`less_newform_old`): on forms with lists of the same lengths the comparison is defined and is the lexicographic
order of the pair (aqlist, aplist), with eigenvalues in the order 0, 1, -1, 2, -2, …; forms which are not comparable have
the same lists. -/
theorem C108_oldLess (f g : List ℤ × List ℤ) (hq : f.1.length = g.1.length) (hp : f.2.length = g.2.length) :
    ∃ b, oldLess f g = some b ∧
      (b = true ↔ LexBefore OldOrder f.1 g.1 ∨ f.1 = g.1 ∧ LexBefore OldOrder f.2 g.2) ∧
      (oldLess g f = some false → b = false → f = g) := by
  have e : (ordOf true) = OldOrder := rfl
  have key : ∀ f g : List ℤ × List ℤ, f.1.length = g.1.length → f.2.length = g.2.length →
      (oldLess f g = some true ∧ (LexBefore OldOrder f.1 g.1 ∨ f.1 = g.1 ∧ LexBefore OldOrder f.2 g.2)) ∨
      (oldLess f g = some false ∧ (f = g ∨ (LexBefore OldOrder g.1 f.1 ∨ g.1 = f.1 ∧ LexBefore OldOrder g.2 f.2))) := by
    intro f g hq hp
    unfold oldLess
    rcases C108_less_apvec true f.1 g.1 hq with ⟨h1, h2⟩ | ⟨h1, h2⟩ | ⟨h1, h2⟩ <;> rw [h1]
    · left; exact ⟨rfl, Or.inl h2⟩
    · rcases C108_less_apvec true f.2 g.2 hp with ⟨g1, g2⟩ | ⟨g1, g2⟩ | ⟨g1, g2⟩ <;> simp only [Option.bind_eq_bind, Option.bind_some, if_true] <;> rw [g1]
      · left; exact ⟨rfl, Or.inr ⟨h2, g2⟩⟩
      · right; exact ⟨rfl, Or.inl (Prod.ext h2 g2)⟩
      · right; exact ⟨rfl, Or.inr (Or.inr ⟨h2.symm, g2⟩)⟩
    · right; exact ⟨rfl, Or.inr (Or.inl h2)⟩
  have irr : ∀ v : List ℤ, ¬ LexBefore OldOrder v v := fun v => by rw [← e]; exact lex_irrefl
  have tr : ∀ {u v w : List ℤ}, LexBefore OldOrder u v → LexBefore OldOrder v w → LexBefore OldOrder u w := by
    rw [← e]; exact fun a b => lex_trans a b
  have asym : ∀ f g : List ℤ × List ℤ, (LexBefore OldOrder f.1 g.1 ∨ f.1 = g.1 ∧ LexBefore OldOrder f.2 g.2) →
      (LexBefore OldOrder g.1 f.1 ∨ g.1 = f.1 ∧ LexBefore OldOrder g.2 f.2) → False := by
    rintro f g (a | ⟨a, a'⟩) (b | ⟨b, b'⟩)
    · exact irr _ (tr a b)
    · rw [b] at a; exact irr _ a
    · rw [a] at b; exact irr _ b
    · exact irr _ (tr a' b')
  rcases key f g hq hp with ⟨h1, h2⟩ | ⟨h1, h2⟩
  · exact ⟨true, h1, ⟨fun _ => h2, fun _ => rfl⟩, fun _ hb => by simp at hb⟩
  · refine ⟨false, h1, ⟨fun hb => by simp at hb, fun hb => ?_⟩, fun hg _ => ?_⟩
    · rcases h2 with h2 | h2
      · subst h2
        exact (asym f f hb hb).elim
      · exact (asym f g hb h2).elim
    · rcases key g f hq.symm hp.symm with ⟨g1, _⟩ | ⟨g1, g2⟩
      · rw [g1] at hg; exact absurd hg (by decide)
      · rcases h2 with h2 | h2
        · exact h2
        · rcases g2 with g2 | g2
          · exact g2.symm
          · exact (asym f g g2 h2).elim

/-- **C108**: both comparisons are irreflexive and transitive on forms with lists of the same lengths -/
theorem C108_order (f g h : List ℤ × List ℤ) (q1 : f.1.length = g.1.length) (p1 : f.2.length = g.2.length)
    (q2 : g.1.length = h.1.length) (p2 : g.2.length = h.2.length) :
    newLess f f = some false ∧ oldLess f f = some false ∧
      (newLess f g = some true → newLess g h = some true → newLess f h = some true) ∧
      (oldLess f g = some true → oldLess g h = some true → oldLess f h = some true) := by
  have irr : ∀ v : List ℤ, ¬ LexBefore OldOrder v v := fun v => lex_irrefl (old := true)
  have tr : ∀ {u v w : List ℤ}, LexBefore OldOrder u v → LexBefore OldOrder v w → LexBefore OldOrder u w :=
    fun a b => lex_trans (old := true) a b
  have irn : ∀ v : List ℤ, ¬ LexBefore (· < ·) v v := fun v => lex_irrefl (old := false)
  have trn : ∀ {u v w : List ℤ}, LexBefore (· < ·) u v → LexBefore (· < ·) v w → LexBefore (· < ·) u w :=
    fun a b => lex_trans (old := false) a b
  refine ⟨?_, ?_, ?_, ?_⟩
  · obtain ⟨b, h1, h2, _⟩ := C108_newLess f f rfl
    cases b
    · exact h1
    · exact absurd (h2.1 rfl) (irn _)
  · obtain ⟨b, h1, h2, _⟩ := C108_oldLess f f rfl rfl
    cases b
    · exact h1
    · rcases h2.1 rfl with h3 | h3
      · exact absurd h3 (irr _)
      · exact absurd h3.2 (irr _)
  · intro a b
    obtain ⟨b1, h1, h2, _⟩ := C108_newLess f g p1
    obtain ⟨b2, h3, h4, _⟩ := C108_newLess g h p2
    obtain ⟨b3, h5, h6, _⟩ := C108_newLess f h (p1.trans p2)
    rw [h1] at a; rw [h3] at b
    simp only [Option.some.injEq] at a b
    rw [h5, h6.2 (trn (h2.1 a) (h4.1 b))]
  · intro a b
    obtain ⟨b1, h1, h2, _⟩ := C108_oldLess f g q1 p1
    obtain ⟨b2, h3, h4, _⟩ := C108_oldLess g h q2 p2
    obtain ⟨b3, h5, h6, _⟩ := C108_oldLess f h (q1.trans q2) (p1.trans p2)
    rw [h1] at a; rw [h3] at b
    simp only [Option.some.injEq] at a b
    rw [h5]
    congr 1
    apply h6.2
    rcases h2.1 a with x | ⟨x, x'⟩ <;> rcases h4.1 b with y | ⟨y, y'⟩
    · exact Or.inl (tr x y)
    · exact Or.inl (y ▸ x)
    · exact Or.inl (x ▸ y)
    · exact Or.inr ⟨x.trans y, tr x' y'⟩

/-! ## Examples -/

/-- two forms with lists of different lengths and equal beginnings: `less_apvec` reads past the end of the second -/
theorem C108_less_apvec_length : lessApvec false [-2, -1, 1] [-2, -1] = none := by decide

theorem nth_prime_small : Nat.nth Nat.Prime 0 = 2 ∧ Nat.nth Nat.Prime 1 = 3 ∧ Nat.nth Nat.Prime 2 = 5 ∧
    Nat.nth Nat.Prime 3 = 7 ∧ Nat.nth Nat.Prime 4 = 11 := by
  refine ⟨Nat.nth_count (p := Nat.Prime) (n := 2) (by decide), Nat.nth_count (p := Nat.Prime) (n := 3) (by decide),
    Nat.nth_count (p := Nat.Prime) (n := 5) (by decide), Nat.nth_count (p := Nat.Prime) (n := 7) (by decide),
    Nat.nth_count (p := Nat.Prime) (n := 11) (by decide)⟩

/-- the first primes -/
def prEx (i : ℕ) : ℕ := [2, 3, 5, 7, 11].getD i 0

theorem prEx_ok : PrOk prEx 5 := by
  intro i hi
  obtain ⟨h0, h1, h2, h3, h4⟩ := nth_prime_small
  interval_cases i
  · rw [h0]; rfl
  · rw [h1]; rfl
  · rw [h2]; rfl
  · rw [h3]; rfl
  · rw [h4]; rfl

theorem plist22 : IsPlist 22 [2, 11] := by
  refine ⟨by decide, fun q => ?_⟩
  have h : Nat.primeFactors 22 = {2, 11} := by decide +kernel
  have h2 := Nat.mem_primeFactors (n := 22) (p := q)
  rw [h] at h2
  simp only [Finset.mem_insert, Finset.mem_singleton] at h2
  simp only [List.mem_cons, List.not_mem_nil, or_false]
  rw [h2]
  simp

/-- eigenvalues for the examples -/
def eEx (p : ℕ) : ℤ := if p = 2 then -1 else if p = 3 then -1 else if p = 5 then 1 else if p = 7 then -2 else 1

theorem apEx : AtPrimes eEx 4 [-1, -1, 1, -2] := by
  obtain ⟨h0, h1, h2, h3, h4⟩ := nth_prime_small
  refine ⟨rfl, fun i hi => ?_⟩
  interval_cases i
  · rw [h0]; rfl
  · rw [h1]; rfl
  · rw [h2]; rfl
  · rw [h3]; rfl

/-- `fixup_eigs` at level 22 with the four primes 2, 3, 5, 7: the eigenvalue at 11 is missing -/
example : fixupEigs 22 prEx [2, 11] eEx [-1, -1, 1, -2] = ([1, -1, 1, -2], [-1, 1], 1) := by decide
example := C108_fixup plist22 (fun i hi => prEx_ok i (by omega)) apEx (fun _ _ => rfl)

theorem apEx' : AtPrimes (fixed 22 eEx) 4 [1, -1, 1, -2] := (C108_fixup plist22 (fun i hi => prEx_ok i (by omega)) apEx (wq := eEx) (fun _ _ => rfl)).1
example := C108_unfix plist22 (fun i hi => prEx_ok i (by omega)) apEx'
example : unfixEigs 22 prEx [1, -1, 1, -2] [-1, 1] = [-1, -1, 1, -2] := by decide

/-- `eiglist(f,1)` at level 22 with the primes 2, 3, 5, 7: five eigenvalues are written into a vector of length 4 -/
theorem C108_eiglist_overflow : eiglistOld 22 prEx [1, -1, 1, -2] [-1, 1] = none := by decide
example : eiglistOld 22 prEx [1, -1, 1, -2, -1] [-1, 1] = some [-1, 1, -1, 1, -2] := by decide
/-- `aqlist` at level 22 with the primes 2, 3, 5, 7 runs past the end of the list -/
theorem C108_aqlist_short : aqlistOf 22 prEx 2 [-1, -1, 1, -2] = none := by decide
example : aqlistOf 22 prEx 2 [-1, -1, 1, -2, 1] = some [-1, 1] := by decide

example : oldLess ([1, -1], [1, -1, 2]) ([1, -1], [1, -1, -2]) = some true ∧
    newLess ([1, -1], [1, -1, 2]) ([1, -1], [1, -1, -2]) = some false := by decide

end Eclib.Newf
