import Verif.Old.Model
import Verif.Old.Dim
import Verif.Arith.DivLemmas
import Mathlib.NumberTheory.ArithmeticFunction.Misc
import Mathlib.Data.Nat.Bitwise

/-!
# C113: the oldclasses

For a newform `f` of level `d` and each system of signs for the primes dividing `m = N/d`, the multiplicity computed is the dimension of
the common eigenspace of the involutions `W_q` on the oldforms `f(δz)`, `δ ∣ m`.
-/

namespace Eclib.Old

open Module
open Eclib.Old.Spec

/-! ## Specification -/

namespace Spec

/-- the data of a form of level `d`: `aqlist` has the eigenvalues `w q = ±1` for the primes `q ∣ d` in order; `aplist` has at least `nap`
entries -/
structure FormOk (d nap : ℕ) (plist : List ℕ) (w : ℕ → ℤ) (f : Form) : Prop where
  sign : ∀ p, w p = 1 ∨ w p = -1
  aqs : f.aqs = (plist.filter (fun p => p ∣ d)).map w
  aps : nap ≤ f.aps.length

/-- the sign in the action of `W_q`: the eigenvalue of the form if `q ∣ d`, else `1` -/
def eps (d : ℕ) (w : ℕ → ℤ) (p : ℕ) : ℤ := if p ∣ d then w p else 1

/-- the primes dividing `m`, with their exponents -/
def mPrimes (betas : List (ℕ × ℕ)) : List (ℕ × ℕ) := betas.filter (fun b => b.2 > 0)

/-- the signs of the class `c`: the `j`th one is given by the `j`th binary digit -/
def sg (c j : ℕ) : ℤ := if c.testBit j then 1 else -1

/-- the common eigenspace belonging to the class `c` -/
abbrev classSpace (d : ℕ) (w : ℕ → ℤ) (L : List (ℕ × ℕ)) (c : ℕ) : Submodule ℚ (OldSpace (fun j : Fin L.length => (L.get j).2)) :=
  eigen (fun j => (L.get j).2) (fun j => eps d w (L.get j).1) (fun j => sg c j)

/-- the first `nap` entries of the list of eigenvalues of the class `c`: the signs of the class at the primes dividing `m`, the eigenvalue of `W_q` at the other
primes dividing the level, and the entries of the form elsewhere -/
structure ApOk (d nap : ℕ) (w : ℕ → ℤ) (betas : List (ℕ × ℕ)) (c : ℕ) (ap0 ap : List ℤ) : Prop where
  len : ap.length = ap0.length
  new : ∀ (j : ℕ) (h : j < (mPrimes betas).length), primePi (mPrimes betas)[j].1 < nap →
    ap[primePi (mPrimes betas)[j].1]? = some (sg c j)
  old : ∀ p, (p, 0) ∈ betas → primePi p < nap → ap[primePi p]? = some (eps d w p)
  good : ∀ i, (∀ b ∈ betas, primePi b.1 ≠ i) → ap[i]? = ap0[i]?

end Spec

/-! ## One class -/

/-- the product of the dimensions, along the list -/
def prodL (d : ℕ) (w : ℕ → ℤ) (c : ℕ) : List (ℕ × ℕ) → ℕ → ℤ
  | [], _ => 1
  | b :: l, j => (tdim b.2 (eps d w b.1 * sg c j) : ℤ) * prodL d w c l (j + 1)

theorem sg_sign (c j : ℕ) : sg c j = 1 ∨ sg c j = -1 := by
  unfold sg
  split <;> simp

theorem eps_sign {d : ℕ} {w : ℕ → ℤ} (h : ∀ p, w p = 1 ∨ w p = -1) (p : ℕ) : eps d w p = 1 ∨ eps d w p = -1 := by
  unfold eps
  split
  · exact h p
  · exact Or.inl rfl

theorem prodL_eq (d : ℕ) (w : ℕ → ℤ) (c : ℕ) : ∀ (L : List (ℕ × ℕ)) (j : ℕ),
    prodL d w c L j = ((∏ i : Fin L.length, tdim (L.get i).2 (eps d w (L.get i).1 * sg c (j + i)) : ℕ) : ℤ)
  | [], j => by simp [prodL]
  | b :: l, j => by
    have e := Fin.prod_univ_succ (n := l.length)
      (fun i => tdim ((b :: l).get i).2 (eps d w ((b :: l).get i).1 * sg c (j + i)))
    have e2 : (b :: l).length = l.length + 1 := rfl
    rw [prodL, prodL_eq d w c l (j + 1)]
    refine Eq.trans ?_ (congrArg (fun t : ℕ => (t : ℤ)) e).symm
    push_cast
    congr 1
    refine Finset.prod_congr rfl (fun i _ => ?_)
    simp only [Fin.val_succ]
    rw [show j + 1 + (i : ℕ) = j + ((i : ℕ) + 1) by omega]
    rfl

theorem prodL_finrank (d : ℕ) {w : ℕ → ℤ} (hw : ∀ p, w p = 1 ∨ w p = -1) (c : ℕ) (L : List (ℕ × ℕ)) :
    prodL d w c L 0 = (finrank ℚ (classSpace d w L c) : ℤ) := by
  have h := finrank_eigen (β := fun j : Fin L.length => (L.get j).2) (ε := fun j => eps d w (L.get j).1) (s := fun j => sg c j)
    (fun j => eps_sign hw _) (fun j => sg_sign c j)
  rw [prodL_eq, h]
  simp

theorem xmult_eq (d p beta : ℕ) {w : ℕ → ℤ} (hw : ∀ p, w p = 1 ∨ w p = -1) (c j : ℕ) :
    xmult d p beta (eps d w p) (c.testBit j) = (tdim beta (eps d w p * sg c j) : ℤ) := by
  have h1 : (p ∣ d ∧ eps d w p = -1) ↔ eps d w p = -1 := by
    constructor
    · exact fun h => h.2
    · intro h
      refine ⟨?_, h⟩
      by_contra h'
      rw [eps, if_neg h'] at h
      norm_num at h
  unfold xmult sg tdim
  simp only [h1]
  rcases eps_sign (d := d) hw p with h | h <;> rw [h] <;> cases c.testBit j <;> simp <;> (try split_ifs) <;> omega

theorem setAp_ok {ap : List ℤ} {nap ip : ℕ} (h : nap ≤ ap.length) (v : ℤ) :
    ∃ ap', setAp ap nap ip v = some ap' ∧ ap'.length = ap.length ∧ (ip < nap → ap'[ip]? = some v) ∧ (∀ i, i ≠ ip → ap'[i]? = ap[i]?) := by
  unfold setAp
  by_cases hi : ip < nap
  · rw [if_pos hi, if_pos (by omega)]
    refine ⟨_, rfl, by simp, ?_, ?_⟩
    · intro _
      rw [List.getElem?_set_self (by omega)]
    · intro i hne
      rw [List.getElem?_set_ne hne.symm]
  · rw [if_neg hi]
    exact ⟨ap, rfl, rfl, fun h' => absurd h' hi, fun _ _ => rfl⟩

theorem nextAq_ok {d p : ℕ} {w : ℕ → ℤ} (l : List ℕ) :
    nextAq d p (((p :: l).filter (fun p => p ∣ d)).map w) = some (eps d w p, (l.filter (fun p => p ∣ d)).map w) := by
  unfold nextAq eps
  by_cases h : p ∣ d
  · rw [if_pos h, if_pos h, List.filter_cons_of_pos (by simpa using h)]
    rfl
  · rw [if_neg h, if_neg h, List.filter_cons_of_neg (by simpa using h)]

theorem classLoop_ok {d nap c : ℕ} {w : ℕ → ℤ} (hw : ∀ p, w p = 1 ∨ w p = -1) : ∀ (betas : List (ℕ × ℕ)) (j : ℕ) (mult : ℤ)
    (ap : List ℤ), (betas.map (fun b => primePi b.1)).Nodup → nap ≤ ap.length →
    ∃ ap', classLoop d nap c betas (((betas.map Prod.fst).filter (fun p => p ∣ d)).map w) j mult ap =
        some (ap', mult * prodL d w c (mPrimes betas) j) ∧ ap'.length = ap.length ∧
      (∀ (i : ℕ) (h : i < (mPrimes betas).length), primePi (mPrimes betas)[i].1 < nap →
        ap'[primePi (mPrimes betas)[i].1]? = some (sg c (j + i))) ∧
      (∀ p, (p, 0) ∈ betas → primePi p < nap → ap'[primePi p]? = some (eps d w p)) ∧
      (∀ i, (∀ b ∈ betas, primePi b.1 ≠ i) → ap'[i]? = ap[i]?)
  | [], j, mult, ap, _, hl => ⟨ap, by simp [classLoop, mPrimes, prodL], rfl, by simp [mPrimes], by simp, fun _ _ => rfl⟩
  | (p, beta) :: rest, j, mult, ap, hnd, hl => by
    rw [List.map_cons, List.nodup_cons] at hnd
    obtain ⟨hp, hnd⟩ := hnd
    have hp' : ∀ b ∈ rest, primePi b.1 ≠ primePi p := fun b hb h => hp (List.mem_map.2 ⟨b, hb, h⟩)
    rw [classLoop, List.map_cons, nextAq_ok, Option.bind_some]
    dsimp only
    by_cases hb : beta = 0
    · rw [if_pos hb]
      obtain ⟨ap1, h1, h2, h3, h4⟩ := setAp_ok (ip := primePi p) hl (eps d w p)
      rw [h1, Option.bind_some]
      obtain ⟨ap', g1, g2, g3, g4, g5⟩ := classLoop_ok (c := c) hw rest j mult ap1 hnd (h2 ▸ hl)
      have hm : mPrimes ((p, beta) :: rest) = mPrimes rest := by
        rw [mPrimes, List.filter_cons_of_neg (by simp [hb])]
        rfl
      refine ⟨ap', by rw [hm]; exact g1, g2.trans h2, by simpa only [hm] using g3, ?_, ?_⟩
      · intro q hq hqn
        rcases List.mem_cons.1 hq with h | h
        · obtain ⟨rfl, -⟩ := Prod.mk.inj h
          rw [g5 _ hp', h3 hqn]
        · exact g4 q h hqn
      · intro i hi
        rw [g5 i (fun b hb => hi b (List.mem_cons_of_mem _ hb)), h4 i (fun h => hi _ List.mem_cons_self h.symm)]
    · rw [if_neg hb]
      obtain ⟨ap1, h1, h2, h3, h4⟩ := setAp_ok (ip := primePi p) hl (if c.testBit j then 1 else -1)
      rw [h1, Option.bind_some, xmult_eq d p beta hw c j]
      obtain ⟨ap', g1, g2, g3, g4, g5⟩ := classLoop_ok (c := c) hw rest (j + 1)
        (mult * (tdim beta (eps d w p * sg c j) : ℤ)) ap1 hnd (h2 ▸ hl)
      have hm : mPrimes ((p, beta) :: rest) = (p, beta) :: mPrimes rest := by
        rw [mPrimes, List.filter_cons_of_pos (by simp; omega)]
        rfl
      refine ⟨ap', ?_, g2.trans h2, ?_, ?_, ?_⟩
      · rw [hm, g1, prodL, mul_assoc]
      · intro i hi hin
        simp only [hm] at hi hin ⊢
        cases i with
        | zero =>
          simp only [List.getElem_cons_zero] at hin ⊢
          rw [g5 _ hp', h3 hin]
          rfl
        | succ i =>
          simp only [List.getElem_cons_succ] at hin ⊢
          rw [g3 i (by simpa using hi) hin, show j + 1 + i = j + (i + 1) by omega]
      · intro q hq hqn
        rcases List.mem_cons.1 hq with h | h
        · exact absurd (Prod.mk.inj h).2.symm hb
        · exact g4 q h hqn
      · intro i hi
        rw [g5 i (fun b hb => hi b (List.mem_cons_of_mem _ hb)), h4 i (fun h => hi _ List.mem_cons_self h.symm)]

theorem class_ok {d nap c : ℕ} {w : ℕ → ℤ} (hw : ∀ p, w p = 1 ∨ w p = -1) {betas : List (ℕ × ℕ)}
    (hnd : (betas.map (fun b => primePi b.1)).Nodup) {ap : List ℤ} (hl : nap ≤ ap.length) :
    ∃ ap', classLoop d nap c betas (((betas.map Prod.fst).filter (fun p => p ∣ d)).map w) 0 1 ap =
        some (ap', (finrank ℚ (classSpace d w (mPrimes betas) c) : ℤ)) ∧ ApOk d nap w betas c ap ap' := by
  obtain ⟨ap', g1, g2, g3, g4, g5⟩ := classLoop_ok (c := c) (nap := nap) (d := d) hw betas 0 1 ap hnd hl
  rw [one_mul, prodL_finrank d hw] at g1
  exact ⟨ap', g1, g2, by simpa using g3, g4, g5⟩

/-! ## All classes of a form -/

/-- the entry of a class -/
noncomputable def entry (d : ℕ) (w : ℕ → ℤ) (L : List (ℕ × ℕ)) (g : ℕ → List ℤ) (c : ℕ) : OldClass :=
  ⟨g c, (finrank ℚ (classSpace d w L c) : ℤ), d⟩

theorem classesLoop_ok {d nap : ℕ} {w : ℕ → ℤ} (hw : ∀ p, w p = 1 ∨ w p = -1) {betas : List (ℕ × ℕ)}
    (hnd : (betas.map (fun b => primePi b.1)).Nodup) {ap0 : List ℤ} : ∀ (cs : List ℕ) (ap : List ℤ), cs.Nodup → nap ≤ ap.length → ap.length = ap0.length →
    (∀ i, (∀ b ∈ betas, primePi b.1 ≠ i) → ap[i]? = ap0[i]?) →
    ∃ g : ℕ → List ℤ, classesLoop d nap betas (((betas.map Prod.fst).filter (fun p => p ∣ d)).map w) cs ap =
        some ((cs.map (entry d w (mPrimes betas) g)).filter (fun e => e.dim > 0)) ∧
      ∀ c ∈ cs, ApOk d nap w betas c ap0 (g c)
  | [], ap, _, _, _, _ => ⟨fun _ => [], rfl, by simp⟩
  | c :: cs, ap, hcs, hl, hl0, hap => by
    rw [List.nodup_cons] at hcs
    obtain ⟨ap', h1, h2⟩ := class_ok (c := c) (d := d) hw hnd hl
    have hap' : ∀ i, (∀ b ∈ betas, primePi b.1 ≠ i) → ap'[i]? = ap0[i]? := fun i hi => (h2.good i hi).trans (hap i hi)
    obtain ⟨g, g1, g2⟩ := classesLoop_ok hw hnd cs ap' hcs.2 (h2.len ▸ hl) (h2.len.trans hl0) hap'
    have hg : ∀ c' ∈ cs, Function.update g c ap' c' = g c' := fun c' hc' =>
      Function.update_of_ne (fun h => hcs.1 (by rw [← h]; exact hc')) _ _
    refine ⟨Function.update g c ap', ?_, ?_⟩
    · rw [classesLoop, h1, Option.bind_some, g1, Option.map_some, List.map_cons, List.filter_cons]
      have e : cs.map (entry d w (mPrimes betas) (Function.update g c ap')) = cs.map (entry d w (mPrimes betas) g) := by
        apply List.map_congr_left
        intro c' hc'
        rw [entry, entry, hg c' hc']
      rw [e]
      simp only [entry, Function.update_self, decide_eq_true_eq]
    · intro c' hc'
      rcases List.mem_cons.1 hc' with rfl | hc'
      · rw [Function.update_self]
        exact ⟨h2.len.trans hl0, h2.new, h2.old, hap'⟩
      · rw [hg c' hc']
        exact g2 c' hc'

/-! ## The sum of the dimensions -/

theorem sg_succ (c j : ℕ) : sg c (j + 1) = sg (c / 2) j := by
  rw [sg, sg, Nat.testBit_succ]

theorem prodL_shift (d : ℕ) (w : ℕ → ℤ) (c : ℕ) : ∀ (L : List (ℕ × ℕ)) (j : ℕ), prodL d w c L (j + 1) = prodL d w (c / 2) L j
  | [], _ => rfl
  | b :: l, j => by rw [prodL, prodL, prodL_shift d w c l (j + 1), sg_succ]

theorem sum_even_odd (f : ℕ → ℤ) : ∀ n, ((List.range (2 * n)).map f).sum = ((List.range n).map (fun i => f (2 * i) + f (2 * i + 1))).sum
  | 0 => rfl
  | n + 1 => by
    rw [show 2 * (n + 1) = 2 * n + 1 + 1 by ring, List.range_succ, List.range_succ, List.range_succ]
    simp only [List.map_append, List.sum_append, List.map_cons, List.map_nil, List.sum_cons, List.sum_nil, sum_even_odd f n]
    ring

theorem tdim_add (b : ℕ) : (tdim b 1 : ℤ) + tdim b (-1) = b + 1 := by
  unfold tdim
  simp only [if_true]
  rw [if_neg (by norm_num)]
  push_cast
  omega

theorem sum_mul (a : ℤ) (f : ℕ → ℤ) (l : List ℕ) : (l.map (fun i => a * f i)).sum = a * (l.map f).sum := by
  induction l with
  | nil => simp
  | cons x l ih => simp [ih, mul_add]

theorem sum_prodL (d : ℕ) {w : ℕ → ℤ} (hw : ∀ p, w p = 1 ∨ w p = -1) : ∀ L : List (ℕ × ℕ),
    ((List.range (2 ^ L.length)).map (fun c => prodL d w c L 0)).sum = (L.map (fun b => (b.2 : ℤ) + 1)).prod
  | [] => by simp [prodL]
  | b :: l => by
    rw [List.length_cons, pow_succ', sum_even_odd]
    have h0 (i : ℕ) : sg (2 * i) 0 = -1 := by
      rw [sg, Nat.testBit_zero]
      simp
    have h1 (i : ℕ) : sg (2 * i + 1) 0 = 1 := by
      rw [sg, Nat.testBit_zero]
      simp [Nat.add_mod]
    have e (i : ℕ) : prodL d w (2 * i) (b :: l) 0 + prodL d w (2 * i + 1) (b :: l) 0 = ((b.2 : ℤ) + 1) * prodL d w i l 0 := by
      rw [prodL, prodL, prodL_shift, prodL_shift, h0, h1, show 2 * i / 2 = i by omega, show (2 * i + 1) / 2 = i by omega, ← add_mul]
      congr 1
      rcases eps_sign (d := d) hw b.1 with h | h
      · rw [h, ← tdim_add b.2]
        norm_num
        ring
      · rw [h, ← tdim_add b.2]
        norm_num
    simp only [e, sum_mul, sum_prodL d hw l]
    simp

/-- dropping the classes of dimension `0` does not change the sum -/
theorem sum_filter (l : List OldClass) (h : ∀ e ∈ l, 0 ≤ e.dim) :
    totalOldDim (l.filter (fun e => e.dim > 0)) = totalOldDim l := by
  induction l with
  | nil => rfl
  | cons e l ih =>
    have ih' := ih (fun x hx => h x (List.mem_cons_of_mem _ hx))
    have he := h e List.mem_cons_self
    rw [List.filter_cons]
    unfold totalOldDim at *
    split
    · simp [ih']
    · rename_i h'
      rw [ih']
      have : e.dim = 0 := by
        simp at h'
        omega
      simp [this]

theorem primePi_inj {p q : ℕ} (hp : p.Prime) (hq : q.Prime) (h : primePi p = primePi q) : p = q := Nat.count_injective hp hq h

theorem val_eq {p m : ℕ} (hp : p.Prime) (hm : m ≠ 0) : Arith.val p m = m.factorization p := by
  have h := Arith.val_spec (p : ℤ) (m : ℤ) (by
    have := hp.two_le
    rw [abs_of_nonneg (by positivity)]
    exact_mod_cast this) (by exact_mod_cast hm)
  obtain ⟨h1, h2⟩ := h
  apply le_antisymm
  · rw [← hp.pow_dvd_iff_le_factorization hm]
    exact_mod_cast h1
  · by_contra hlt
    push Not at hlt
    apply h2
    have : p ^ (Arith.val p m + 1) ∣ m := (hp.pow_dvd_iff_le_factorization hm).2 hlt
    exact_mod_cast this

theorem prod_divisors {plist : List ℕ} (hp : ∀ p ∈ plist, p.Prime) (hnd : plist.Nodup) {m : ℕ} (hm : m ≠ 0)
    (hall : ∀ p, p.Prime → p ∣ m → p ∈ plist) :
    ((mPrimes (betaList plist m)).map (fun b => (b.2 : ℤ) + 1)).prod = ((Nat.divisors m).card : ℤ) := by
  have h1 : ∀ l : List (ℕ × ℕ), ((mPrimes l).map (fun b => (b.2 : ℤ) + 1)).prod = (l.map (fun b => (b.2 : ℤ) + 1)).prod := by
    intro l
    induction l with
    | nil => rfl
    | cons b l ih =>
      unfold mPrimes at *
      rw [List.filter_cons]
      split
      · simp [ih]
      · rename_i h
        have : b.2 = 0 := by simpa using h
        rw [ih]
        simp [this]
  rw [h1, betaList, List.map_map, Nat.card_divisors hm]
  have h2 : (plist.map ((fun b : ℕ × ℕ => (b.2 : ℤ) + 1) ∘ fun q => (q, Arith.val q m))) =
      plist.map (fun q => ((m.factorization q + 1 : ℕ) : ℤ)) := by
    apply List.map_congr_left
    intro q hq
    simp only [Function.comp, val_eq (hp q hq) hm]
    push_cast
    ring
  rw [h2, ← List.prod_toFinset _ hnd]
  push_cast
  symm
  apply Finset.prod_subset
  · intro p h
    rw [Nat.mem_primeFactors] at h
    exact List.mem_toFinset.2 (hall p h.1 h.2.1)
  · intro p h h'
    rw [Nat.mem_primeFactors] at h'
    have hpp := hp p (List.mem_toFinset.1 h)
    have : m.factorization p = 0 := Nat.factorization_eq_zero_of_not_dvd (fun hd => h' ⟨hpp, hd, hm⟩)
    rw [this]
    norm_num

/-! ## C113 -/

/-- **C113, one form, partial.** (Missing: the entries with index `≥ nap`; see `C113_nap`.) Let `plist` be the list of the primes dividing the level, `m ≥ 1` and `f` a form of level `d`. The loop over the
classes ends without reading or writing outside the lists. It gives the classes `c < 2^k`, `k` the number of primes dividing `m`, for which
the common eigenspace is not zero, with multiplicity its dimension and the list of eigenvalues of the class; and the multiplicities add up
to the number of divisors of `m`. -/
theorem C113_form_partial {plist : List ℕ} (hp : ∀ p ∈ plist, p.Prime) (hnd : plist.Nodup) {m : ℕ} (hm : m ≠ 0)
    (hall : ∀ p, p.Prime → p ∣ m → p ∈ plist) {d nap : ℕ} {w : ℕ → ℤ} {f : Form} (hf : FormOk d nap plist w f) :
    ∃ g : ℕ → List ℤ,
      classesLoop d nap (betaList plist m) f.aqs (List.range (2 ^ (mPrimes (betaList plist m)).length)) f.aps =
        some (((List.range (2 ^ (mPrimes (betaList plist m)).length)).map (fun c =>
          (⟨g c, (finrank ℚ (classSpace d w (mPrimes (betaList plist m)) c) : ℤ), d⟩ : OldClass))).filter (fun e => e.dim > 0)) ∧
      (∀ c < 2 ^ (mPrimes (betaList plist m)).length, ApOk d nap w (betaList plist m) c f.aps (g c)) ∧
      ∑ c ∈ Finset.range (2 ^ (mPrimes (betaList plist m)).length), finrank ℚ (classSpace d w (mPrimes (betaList plist m)) c) =
        (Nat.divisors m).card := by
  have hb1 : (betaList plist m).map Prod.fst = plist := by
    rw [betaList, List.map_map]
    exact List.map_id _
  have hnd' : ((betaList plist m).map (fun b => primePi b.1)).Nodup := by
    have : (betaList plist m).map (fun b => primePi b.1) = plist.map primePi := by
      rw [betaList, List.map_map]
      rfl
    rw [this]
    exact hnd.map_on (fun p hp1 q hq1 h => primePi_inj (hp p hp1) (hp q hq1) h)
  obtain ⟨g, g1, g2⟩ := classesLoop_ok (nap := nap) (d := d) hf.sign hnd' (ap0 := f.aps)
    (List.range (2 ^ (mPrimes (betaList plist m)).length)) f.aps List.nodup_range hf.aps rfl (fun _ _ => rfl)
  rw [hb1, ← hf.aqs] at g1
  refine ⟨g, g1, fun c hc => g2 c (List.mem_range.2 hc), ?_⟩
  have h := sum_prodL d hf.sign (mPrimes (betaList plist m))
  rw [prod_divisors hp hnd hm hall] at h
  simp only [prodL_finrank d hf.sign] at h
  have e : ∀ (f : ℕ → ℕ) (n : ℕ), ((List.range n).map (fun c => (f c : ℤ))).sum = ((∑ c ∈ Finset.range n, f c : ℕ) : ℤ) := by
    intro f n
    induction n with
    | zero => rfl
    | succ n ih => simp [List.range_succ, Finset.sum_range_succ, ih]
  rw [e (fun c => finrank ℚ (classSpace d w (mPrimes (betaList plist m)) c))] at h
  exact_mod_cast h

/-- the classes of the forms of level `d` add up to the number of forms times the number of divisors of `N/d` -/
theorem formsLoop_total {plist : List ℕ} (hp : ∀ p ∈ plist, p.Prime) (hnd : plist.Nodup) {m : ℕ} (hm : m ≠ 0)
    (hall : ∀ p, p.Prime → p ∣ m → p ∈ plist) {d nap : ℕ} : ∀ (fs : List Form), (∀ f ∈ fs, ∃ w, FormOk d nap plist w f) →
    ∃ l, formsLoop d nap (betaList plist m) (mPrimes (betaList plist m)).length fs = some l ∧
      totalOldDim l = fs.length * (Nat.divisors m).card ∧ (∀ e ∈ l, 0 < e.dim ∧ e.level = d)
  | [], _ => ⟨[], rfl, by simp [totalOldDim], by simp⟩
  | f :: fs, h => by
    obtain ⟨w, hf⟩ := h f List.mem_cons_self
    obtain ⟨g, g1, -, g3⟩ := C113_form_partial hp hnd hm hall hf
    obtain ⟨l, h1, h2, h3⟩ := formsLoop_total hp hnd hm hall fs (fun f' hf' => h f' (List.mem_cons_of_mem _ hf'))
    refine ⟨_, by rw [formsLoop, g1, Option.bind_some, h1, Option.map_some], ?_, ?_⟩
    · have e : ∀ l1 l2, totalOldDim (l1 ++ l2) = totalOldDim l1 + totalOldDim l2 := by
        intro l1 l2
        simp [totalOldDim]
      rw [e, h2, sum_filter]
      · have e2 : ∀ (F : ℕ → ℕ) (n : ℕ), ((List.range n).map (fun c => (F c : ℤ))).sum = ((∑ c ∈ Finset.range n, F c : ℕ) : ℤ) := by
          intro F n
          induction n with
          | zero => rfl
          | succ n ih => simp [List.range_succ, Finset.sum_range_succ, ih]
        have e3 := e2 (fun c => finrank ℚ (classSpace d w (mPrimes (betaList plist m)) c)) (2 ^ (mPrimes (betaList plist m)).length)
        rw [g3] at e3
        unfold totalOldDim
        rw [List.map_map]
        refine Eq.trans (congrArg (fun t => t + _) e3) ?_
        rw [List.length_cons]
        push_cast
        ring
      · intro x hx
        obtain ⟨c, -, rfl⟩ := List.mem_map.1 hx
        exact Int.natCast_nonneg _
    · intro x hx
      rcases List.mem_append.1 hx with hx | hx
      · obtain ⟨hx1, hx2⟩ := List.mem_filter.1 hx
        obtain ⟨c, -, rfl⟩ := List.mem_map.1 hx1
        exact ⟨by simpa using hx2, rfl⟩
      · exact h3 x hx

/-- **C113, total.** Let `plist` be the list of the primes dividing `N` and `dlist` a list of divisors of `N`; the forms of each level
`d` have their eigenvalues at the primes dividing `d`. The list of oldclasses is computed without reading or writing outside the lists, all
classes have positive dimension, and the dimensions add up to `Σ (number of forms of level d)·σ₀(N/d)`, over the `d` in the list
with `11 ≤ d < N`. -/
theorem C113_total {n : ℕ} (hn : n ≠ 0) {plist : List ℕ} (hp : ∀ p, p ∈ plist ↔ p.Prime ∧ p ∣ n) (hnd : plist.Nodup)
    {data : ℕ → OldData} (hdata : ∀ d, d ∣ n → ∀ f ∈ (data d).forms, ∃ w, FormOk d (data d).nap plist w f) :
    ∀ (dlist : List ℕ), (∀ d ∈ dlist, d ∣ n) →
    ∃ l, oldLoop n plist data dlist = some l ∧ (∀ e ∈ l, 0 < e.dim ∧ e.level ∈ dlist) ∧
      totalOldDim l = ((dlist.filter (fun d => 11 ≤ d ∧ d ≠ n)).map (fun d => ((data d).forms.length * (Nat.divisors (n / d)).card : ℤ))).sum
  | [], _ => ⟨[], rfl, by simp, by simp [totalOldDim]⟩
  | d :: ds, hd => by
    obtain ⟨l, h1, h2, h3⟩ := C113_total hn hp hnd hdata ds (fun d' hd' => hd d' (List.mem_cons_of_mem _ hd'))
    have hdn := hd d List.mem_cons_self
    rw [oldLoop]
    by_cases hc : d < 11 ∨ d = n
    · rw [if_pos hc]
      refine ⟨l, h1, fun e he => ⟨(h2 e he).1, List.mem_cons_of_mem _ (h2 e he).2⟩, ?_⟩
      rw [List.filter_cons_of_neg (by simp; omega)]
      exact h3
    · rw [if_neg hc]
      push Not at hc
      have hlt : n > d := lt_of_le_of_ne (Nat.le_of_dvd (Nat.pos_of_ne_zero hn) hdn) hc.2
      have hm : n / d ≠ 0 := (Nat.div_pos hlt.le (by omega)).ne'
      obtain ⟨l', k1, k2, k3⟩ := formsLoop_total (fun p h => ((hp p).1 h).1) hnd hm
        (fun p h h' => (hp p).2 ⟨h, h'.trans (Nat.div_dvd_of_dvd hdn)⟩) (data d).forms (hdata d hdn)
      have e : getOldClasses n d plist data = some l' := by
        rw [getOldClasses, if_pos ⟨by omega, hlt⟩]
        exact k1
      rw [e, Option.bind_some, h1, Option.map_some]
      refine ⟨_, rfl, ?_, ?_⟩
      · intro x hx
        rcases List.mem_append.1 hx with hx | hx
        · exact ⟨(k3 x hx).1, by rw [(k3 x hx).2]; exact List.mem_cons_self⟩
        · exact ⟨(h2 x hx).1, List.mem_cons_of_mem _ (h2 x hx).2⟩
      · rw [List.filter_cons_of_pos (by simp; omega), List.map_cons, List.sum_cons, ← h3, ← k2]
        simp [totalOldDim]

theorem startsWith_ok : ∀ (a b : List ℤ), b.length ≤ a.length → startsWith a b = some (decide (b <+: a))
  | _, [], _ => by simp [startsWith]
  | [], _ :: _, h => by simp at h
  | x :: a, y :: b, h => by
    rw [startsWith]
    by_cases hxy : x = y
    · simp only [hxy, beq_self_eq_true, if_true]
      rw [startsWith_ok a b (by simpa using h)]
      simp
    · have h1 : ¬ y :: b <+: x :: a := fun h' => hxy (List.cons_prefix_cons.1 h').1.symm
      simp [hxy, h1]

/-- **C113, the dimension of the old part.** For a list of eigenvalues which is not empty and not longer than the lists of the classes,
`dimoldpart` gives the sum of the dimensions of the classes whose list begins with it, doubled when `plusflag` is not set. -/
theorem C113_dimoldpart (plusflag : Bool) (l : List OldClass) {ap : List ℤ} (hne : ap ≠ []) (hlen : ∀ e ∈ l, ap.length ≤ e.ap.length) :
    dimOldPart plusflag l ap = some ((if plusflag then 1 else 2) * ((l.filter (fun e => ap <+: e.ap)).map OldClass.dim).sum) := by
  have key : ∀ (l : List OldClass) (acc : ℤ), (∀ e ∈ l, ap.length ≤ e.ap.length) →
      l.foldlM (fun (acc : Int) (c : OldClass) => (startsWith c.ap ap).map (fun (b : Bool) => if b then acc + c.dim else acc)) acc =
        some (acc + ((l.filter (fun e => ap <+: e.ap)).map OldClass.dim).sum) := by
    intro l
    induction l with
    | nil =>
      intro acc _
      simp
    | cons e l ih =>
      intro acc h
      rw [List.foldlM_cons, startsWith_ok _ _ (h e List.mem_cons_self), Option.map_some, List.filter_cons]
      refine (ih _ (fun x hx => h x (List.mem_cons_of_mem _ hx))).trans ?_
      by_cases hpre : ap <+: e.ap
      · simp only [hpre, decide_true, if_true, List.map_cons, List.sum_cons]
        rw [add_assoc]
      · simp [hpre]
  rw [dimOldPart, if_neg (by simpa using hne), key l 0 hlen, Option.map_some]
  cases plusflag <;> simp
  ring

/-! ## Examples and witnesses -/

/-- the form `11a`, with the first 25 eigenvalues -/
def f11 : Form := ⟨[-1], [-2, -1, 1, -2, -1, 4, -2, 0, -1, 0, 7, 3, -8, -6, 8, -6, 5, 12, -7, -3, 4, -10, -6, 15, -7]⟩

/-- the hypotheses hold for this form at the level `121`; there is one class for each sign -/
example : FormOk 11 25 [11] (fun _ => -1) f11 ∧
    (getOldClasses 121 11 [11] (fun _ => ⟨[f11], 25⟩)).map (fun (l : List OldClass) => l.map (fun e => (e.ap.getD 4 0, e.dim))) =
      some [(-1, 1), (1, 1)] :=
  ⟨⟨fun _ => Or.inr rfl, by decide +kernel, by decide⟩, by decide +kernel⟩

/-- at the level `1331` the sign of the form has multiplicity `2` -/
example : (getOldClasses 1331 11 [11] (fun _ => ⟨[f11], 25⟩)).map (fun (l : List OldClass) => l.map (fun e => (e.ap.getD 4 0, e.dim))) =
      some [(-1, 2), (1, 1)] := by decide +kernel

/-- **C113, witness.** `createfromscratch` and `createfromcurves_mini` leave `nap` at its default `20` although the lists have at least 25
entries. At the level `803 = 11·73` the entry at the prime `73`, which has index `20`, is therefore not set to the sign of the class, and both
classes have the same list; the old part of the list with the sign `±1` at `73` is found to have dimension `0` in place of `1`. With
`nap = 25` it is right. -/
theorem C113_nap :
    ((getOldClasses 803 11 [11, 73] (fun _ => ⟨[f11], 20⟩)).map (fun (l : List OldClass) => l.map (fun e => (e.ap.getD 20 0, e.dim))) =
      some [(4, 1), (4, 1)]) ∧
    ((getOldClasses 803 11 [11, 73] (fun _ => ⟨[f11], 20⟩)).bind (fun (l : List OldClass) =>
      dimOldPart true l ((f11.aps.take 20) ++ [1])) = some 0) ∧
    ((getOldClasses 803 11 [11, 73] (fun _ => ⟨[f11], 25⟩)).bind (fun (l : List OldClass) =>
      dimOldPart true l ((f11.aps.take 20) ++ [1])) = some 1) := by
  refine ⟨by decide +kernel, by decide +kernel, by decide +kernel⟩

/-- **C113, witness.** When the list of eigenvalues is longer than the lists of the classes, and one of these is a beginning of it, the
comparison reads past the end. -/
theorem C113_read : (getOldClasses 121 11 [11] (fun _ => ⟨[f11], 25⟩)).bind (fun (l : List OldClass) =>
    dimOldPart true l (f11.aps ++ [0])) = none := by decide +kernel

end Eclib.Old
