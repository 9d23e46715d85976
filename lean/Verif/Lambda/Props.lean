import Verif.Lambda.Model
import Verif.Curve.PointTests
import Mathlib.Analysis.SpecialFunctions.Log.Basic

/-!
# C123, C125, C126: lambda.cc
-/

namespace Eclib.Lambda

open Eclib.Curve Eclib.Curve.Props P2 Marith

/-! ## C123: `make_point_from_x` -/

/-- for a positive denominator the code finds the first point of `points_from_x` -/
theorem make_eq (E : Cd) (n D : ℤ) (hD : 0 < D) : makePointFromX E n D = (pointsFromX E n D).head? := by
  unfold makePointFromX pointsFromX
  rw [if_neg (show ¬ D < 0 by omega), if_neg (show ¬ D < 0 by omega)]
  by_cases h1 : (isqrt D).1 = true
  · have e1 : D = ((isqrt D).2 : ℤ) * ((isqrt D).2 : ℤ) := isqrt_sound D h1
    simp only [h1, if_true]
    have e2 : ((4 * n + E.b2 * D) * n + 2 * E.b4 * (D * D)) * n + E.b6 * (D * D * D) =
      ((4 * n + E.b2 * D) * n + 2 * E.b4 * (D * D)) * n + E.b6 * (D * D) * D := by ring
    rw [e2]
    set s := ((4 * n + E.b2 * D) * n + 2 * E.b4 * (D * D)) * n + E.b6 * (D * D) * D with hs
    by_cases h2 : (isqrt s).1 = true
    · simp only [h2, if_true]
      have e3 : ((isqrt s).2 : ℤ) - E.a1 * n * ((isqrt D).2 : ℤ) - E.a3 * ((isqrt D).2 : ℤ) * D =
        ((isqrt s).2 : ℤ) - (E.a1 * n + E.a3 * D) * ((isqrt D).2 : ℤ) := by ring
      rw [e3, mul_comm ((isqrt D).2 : ℤ) D]
      split <;> rfl
    · simp only [h2]; rfl
  · simp only [h1]; rfl

/-- the sign of the denominator does not matter -/
theorem make_neg (E : Cd) (n D : ℤ) (hD : D < 0) : makePointFromX E n D = makePointFromX E (-n) (-D) := by
  unfold makePointFromX
  rw [if_pos hD, if_pos hD, if_neg (show ¬ -D < 0 by omega), if_neg (show ¬ -D < 0 by omega)]

/-- **C123**, soundness: a point returned by `make_point_from_x` is a valid, reduced, finite point of the curve with `x`-coordinate
`xa/xd`, for every denominator other than 0. -/
theorem C123_sound (E : Cv) (hE : E.W.Δ ≠ 0) (xa xd : ℤ) (hd : xd ≠ 0) (P : P2) (h : makePointFromX (Cd.ofAi E) xa xd = some P) :
    isvalid E P = true ∧ Reduced P ∧ P.Z ≠ 0 ∧ (P.X / P.Z : ℚ) = xa / xd := by
  rcases lt_or_gt_of_ne hd with h0 | h0
  · rw [make_neg _ _ _ h0, make_eq _ _ _ (by omega)] at h
    have := (C39_sound E hE (-xa) (-xd) (by omega)).1 P (List.mem_of_mem_head? h)
    refine ⟨this.1, this.2.1, this.2.2.1, ?_⟩
    rw [this.2.2.2]; push_cast; rw [neg_div_neg_eq]
  · rw [make_eq _ _ _ h0] at h
    exact (C39_sound E hE xa xd h0).1 P (List.mem_of_mem_head? h)

/-- **C123**, completeness: if there is a rational point with `x`-coordinate `xa/xd`, a fraction in lowest terms with either sign of
the denominator, then `make_point_from_x` returns a point. -/
theorem C123_complete (E : Cv) (hE : E.W.Δ ≠ 0) (xa xd : ℤ) (hd : xd ≠ 0) (hc : IsCoprime xa xd) (y : ℚ)
    (h : E.Q.toAffine.Nonsingular (xa / xd : ℚ) y) : (makePointFromX (Cd.ofAi E) xa xd).isSome = true := by
  have key : ∀ n D : ℤ, 0 < D → IsCoprime n D → E.Q.toAffine.Nonsingular (n / D : ℚ) y →
      (makePointFromX (Cd.ofAi E) n D).isSome = true := by
    intro n D hD hc h
    obtain ⟨P, hP, -⟩ := C39_complete E hE _ y h
    rw [Int.isCoprime_iff_nat_coprime] at hc
    rw [Rat.num_div_eq_of_coprime hD hc, Rat.den_div_eq_of_coprime hD hc] at hP
    rw [make_eq _ _ _ hD, List.isSome_head?]
    exact List.ne_nil_of_mem hP
  rcases lt_or_gt_of_ne hd with h0 | h0
  · rw [make_neg _ _ _ h0]
    refine key _ _ (by omega) hc.neg_neg ?_
    push_cast
    rwa [neg_div_neg_eq]
  · exact key _ _ h0 hc h

/-- **C123**, the boundary: with a fraction which is not in lowest terms the point (0,0) of `y² + y = x³ - x` is missed (0 = 0/2, 2 is
not a square), and the pair 0, 0 is accepted with the triple [0:0:0], which is not a point. -/
theorem C123_boundary :
    makePointFromX (Cd.ofAi ⟨0, 0, 1, -1, 0⟩) 0 2 = none ∧ makePointFromX (Cd.ofAi ⟨0, 0, 1, -1, 0⟩) 0 1 = some ⟨0, 0, 1⟩ ∧
      ∀ E, makePointFromX E 0 0 = some ⟨0, 0, 0⟩ := by
  refine ⟨by decide +kernel, by decide +kernel, fun E => ?_⟩
  have h : isqrt 0 = (true, 0) := by decide +kernel
  simp [makePointFromX, h, mk', reduce]

/-- the hypotheses for the curve 37a and the point with `x = 1/4`, with either sign -/
example : (⟨0, 0, 1, -1, 0⟩ : Cv).W.Δ ≠ 0 ∧ makePointFromX (Cd.ofAi ⟨0, 0, 1, -1, 0⟩) 1 4 = some ⟨2, -3, 8⟩ ∧
    makePointFromX (Cd.ofAi ⟨0, 0, 1, -1, 0⟩) (-1) (-4) = some ⟨2, -3, 8⟩ :=
  ⟨by decide +kernel, by decide +kernel, by decide +kernel⟩

/-! ## C126: `make_point_from_x_and_ht` -/

variable {K : Type} [Field K]

/-- what the function tries: the loop adds nothing for positive `xd` -/
theorem tryLam_pos (rnd : K → ℤ) (E : Cd) (xp : K) {xd : ℤ} (h : 0 < xd) : tryLam rnd E xp xd = tryD rnd E xp xd := by
  unfold tryLam
  rw [if_pos h]
  cases hd : tryD rnd E xp xd with
  | some P => rfl
  | none =>
    have : ∀ k, deltaLoop rnd E xp xd k = none := by
      intro k
      induction k with
      | zero => rfl
      | succ k ih => simp [deltaLoop, hd, ih]
    exact this 10

theorem deltaLoop_some {rnd : K → ℤ} {E : Cd} {xp : K} {xd : ℤ} {P : P2} : ∀ k, deltaLoop rnd E xp xd k = some P →
    tryD rnd E xp xd = some P := by
  intro k
  induction k with
  | zero => intro h; simp [deltaLoop] at h
  | succ k ih =>
    intro h
    unfold deltaLoop at h
    split at h
    · rename_i Q hQ
      split at hQ
      · rw [hQ]; exact h
      · simp at hQ
    · split at h
      · rename_i Q hQ
        split at hQ
        · rw [hQ]; exact h
        · simp at hQ
      · exact ih h

theorem tryLam_some {rnd : K → ℤ} {E : Cd} {xp : K} {xd : ℤ} {P : P2} (h : tryLam rnd E xp xd = some P) :
    tryD rnd E xp xd = some P := by
  unfold tryLam at h
  split at h
  · rename_i Q hQ
    split at hQ
    · rw [hQ]; exact h
    · simp at hQ
  · exact deltaLoop_some _ h

theorem ht_some {rnd : K → ℤ} {E : Cd} {xp : K} {P : P2} : ∀ l, makePointHt rnd E xp l = some P →
    ∃ xd ∈ l, tryD rnd E xp xd = some P := by
  intro l
  induction l with
  | nil => intro h; simp [makePointHt] at h
  | cons a l ih =>
    intro h
    unfold makePointHt at h
    split at h
    · rename_i Q hQ
      exact ⟨a, by simp, by rw [tryLam_some hQ]; exact h⟩
    · obtain ⟨xd, h1, h2⟩ := ih h
      exact ⟨xd, by simp [h1], h2⟩

/-- **C126**, when no approximate denominator is rounded to 0: the point returned is a valid point of the curve, with `x`-coordinate
`Iround(xp d²)/d²` for one of the approximate denominators `d`. If the denominators are positive and the `x`-coordinate is exact for
one of them then a point is returned. -/
theorem C126_partial (rnd : K → ℤ) (E : Cv) (hE : E.W.Δ ≠ 0) (xp : K) (l : List ℤ) :
    ((∀ d ∈ l, d ≠ 0) → ∀ P, makePointHt rnd (Cd.ofAi E) xp l = some P →
      isvalid E P = true ∧ Reduced P ∧ P.Z ≠ 0 ∧ ∃ d ∈ l, (P.X / P.Z : ℚ) = rnd (xp * (d : K) ^ 2) / (d : ℚ) ^ 2) ∧
    (∀ d ∈ l, 0 < d → ∀ n : ℤ, rnd (xp * (d : K) ^ 2) = n → IsCoprime n d → ∀ y : ℚ,
      E.Q.toAffine.Nonsingular (n / (d : ℚ) ^ 2) y → (makePointHt rnd (Cd.ofAi E) xp l).isSome = true) := by
  constructor
  · intro hl P hP
    obtain ⟨d, hd, h⟩ := ht_some l hP
    have := C123_sound E hE _ (d * d) (mul_ne_zero (hl d hd) (hl d hd)) P h
    refine ⟨this.1, this.2.1, this.2.2.1, d, hd, ?_⟩
    rw [this.2.2.2, sq, sq]; push_cast; rfl
  · intro d hd h0 n hn hc y hy
    have h1 : (tryLam rnd (Cd.ofAi E) xp d).isSome = true := by
      rw [tryLam_pos _ _ _ h0]
      have e : rnd (xp * ((d * d : ℤ) : K)) = n := by rw [← hn]; push_cast; rw [sq]
      show (makePointFromX (Cd.ofAi E) (rnd (xp * ((d * d : ℤ) : K))) (d * d)).isSome = true
      rw [e]
      refine C123_complete E hE n (d * d) (by positivity) (hc.mul_right hc) y ?_
      push_cast
      rwa [← sq]
    induction l with
    | nil => simp at hd
    | cons a l ih =>
      unfold makePointHt
      split
      · rfl
      · rename_i hQ
        rcases List.mem_cons.1 hd with rfl | hd
        · rw [hQ] at h1; simp at h1
        · exact ih hd

/-- the hypotheses for 37a -/
example := C126_partial (K := ℚ) round ⟨0, 0, 1, -1, 0⟩ (by decide +kernel) (1 / 4) [5, 2]

/-- **C126**, negative: an approximate denominator rounded to 0 makes the function return [0:0:0], for every curve. -/
theorem C126_null (rnd : K → ℤ) (h0 : rnd 0 = 0) (E : Cv) (xp : K) (l : List ℤ) :
    makePointHt rnd (Cd.ofAi E) xp (0 :: l) = some ⟨0, 0, 0⟩ ∧ isvalid E ⟨0, 0, 0⟩ = false := by
  constructor
  · have h : tryD rnd (Cd.ofAi E) xp 0 = some ⟨0, 0, 0⟩ := by
      unfold tryD
      simp only [mul_zero, Int.cast_zero, h0]
      exact C123_boundary.2.2 _
    have : tryLam rnd (Cd.ofAi E) xp 0 = some ⟨0, 0, 0⟩ := by
      unfold tryLam
      simp [deltaLoop, h]
    unfold makePointHt
    rw [this]
  · simp [isvalid]

/-- **C126**, negative: the loop which should try the denominators near the approximation tries the approximation only: with `x = 1/4`
on 37a and approximate denominator 3 instead of 2 nothing is found, although 2 gives the point. -/
theorem C126_neighbour :
    makePointHt round (Cd.ofAi ⟨0, 0, 1, -1, 0⟩) (1 / 4 : ℚ) [3] = none ∧
      makePointHt round (Cd.ofAi ⟨0, 0, 1, -1, 0⟩) (1 / 4 : ℚ) [2] = some ⟨2, -3, 8⟩ := by
  have r1 : round ((1 / 4 : ℚ) * ((3 * 3 : ℤ) : ℚ)) = 2 := by rw [round_eq]; norm_num [Int.floor_eq_iff]
  have r2 : round ((1 / 4 : ℚ) * ((2 * 2 : ℤ) : ℚ)) = 1 := by rw [round_eq]; norm_num [Int.floor_eq_iff]
  have t1 : tryD round (Cd.ofAi ⟨0, 0, 1, -1, 0⟩) (1 / 4 : ℚ) 3 = none := by
    unfold tryD; simp only [r1]; decide +kernel
  have t2 : tryD round (Cd.ofAi ⟨0, 0, 1, -1, 0⟩) (1 / 4 : ℚ) 2 = some ⟨2, -3, 8⟩ := by
    unfold tryD; simp only [r2]; decide +kernel
  constructor
  · unfold makePointHt; rw [tryLam_pos _ _ _ (by norm_num), t1]; rfl
  · unfold makePointHt; rw [tryLam_pos _ _ _ (by norm_num), t2]

/-! ## C125: `lambda_bad` -/

/-- `v` is a sum with one summand from every list -/
def IsSum (ls : List (List K)) (v : K) : Prop := ∃ c : List K, List.Forall₂ (· ∈ ·) c ls ∧ v = c.sum

theorem IsSum.snoc {ls : List (List K)} {v x : K} {l : List K} (h : IsSum ls v) (hx : x ∈ l) : IsSum (ls ++ [l]) (v + x) := by
  obtain ⟨c, h1, rfl⟩ := h
  exact ⟨c ++ [x], List.rel_append h1 (List.Forall₂.cons hx List.Forall₂.nil), by simp⟩

/-- the fold of `lamStep` -/
def lamFold (ls : List (List K)) : List K × ℕ := ls.foldl lamStep ([0], 1)

theorem lamFold_snoc (ls : List (List K)) (l : List K) : lamFold (ls ++ [l]) = lamStep (lamFold ls) l := by
  simp [lamFold]

theorem lamFold_len (ls : List (List K)) : (lamFold ls).2 = (ls.map List.length).prod ∧ (lamFold ls).2 ≤ (lamFold ls).1.length := by
  induction ls using List.reverseRecOn with
  | nil => simp [lamFold]
  | append_singleton ls l ih =>
    rw [lamFold_snoc]
    constructor
    · simp [lamStep, ih.1]
    · simp [lamStep, List.length_flatMap]

theorem lamFold_cons (ls : List (List K)) : ∃ t, (lamFold ls).1 = 0 :: t := by
  induction ls using List.reverseRecOn with
  | nil => exact ⟨[], rfl⟩
  | append_singleton ls l ih =>
    obtain ⟨t, ht⟩ := ih
    rw [lamFold_snoc]
    exact ⟨t ++ _, by simp only [lamStep, ht, List.cons_append]; rfl⟩

theorem lamFold_sound (ls : List (List K)) (h0 : ∀ l ∈ ls, (0 : K) ∈ l) : ∀ v ∈ (lamFold ls).1, IsSum ls v := by
  induction ls using List.reverseRecOn with
  | nil =>
    intro v hv
    have : v = 0 := by simpa [lamFold] using hv
    exact ⟨[], List.Forall₂.nil, by simp [this]⟩
  | append_singleton ls l ih =>
    intro v hv
    have ih := ih (fun m hm => h0 m (by simp [hm]))
    rw [lamFold_snoc] at hv
    simp only [lamStep, List.mem_append, List.mem_flatMap, List.mem_map, List.mem_range] at hv
    rcases hv with hv | ⟨i, hi, x, hx, rfl⟩
    · have := (ih v hv).snoc (h0 l (by simp))
      rwa [add_zero] at this
    · have hlt : i < (lamFold ls).1.length := lt_of_lt_of_le hi (lamFold_len ls).2
      refine (ih _ ?_).snoc hx
      have : (lamFold ls).1.getD i 0 = (lamFold ls).1[i] := by simp [hlt]
      rw [this]
      exact List.getElem_mem hlt

theorem lamFold_mono (ls ms : List (List K)) : ∀ v ∈ (lamFold ls).1, v ∈ (lamFold (ls ++ ms)).1 := by
  induction ms using List.reverseRecOn with
  | nil => simp
  | append_singleton ms l ih =>
    intro v hv
    rw [← List.append_assoc, lamFold_snoc]
    exact List.mem_append_left _ (ih v hv)

theorem sum_zeros (ls : List (List K)) (h : ∀ l ∈ ls, l = [0]) {c : List K} (hc : List.Forall₂ (· ∈ ·) c ls) : c.sum = 0 := by
  induction hc with
  | nil => rfl
  | @cons a b _ _ hx _ ih =>
    rw [List.sum_cons, ih (fun l hl => h l (by simp [hl]))]
    rw [h b (by simp)] at hx
    simpa using hx

/-- every list but one is `[0]`: all the sums are found -/
theorem lamFold_complete (pre post : List (List K)) (l : List K) (h1 : ∀ m ∈ pre, m = [0]) (h2 : ∀ m ∈ post, m = [0]) (v : K)
    (hv : IsSum (pre ++ l :: post) v) : v ∈ (lamFold (pre ++ l :: post)).1 := by
  obtain ⟨c, hc, rfl⟩ := hv
  have hin : ∀ x ∈ l, x ∈ (lamFold (pre ++ [l])).1 := by
    intro x hx
    rw [lamFold_snoc]
    have hn : (lamFold pre).2 = 1 := by
      rw [(lamFold_len pre).1]
      apply List.prod_eq_one
      intro a ha
      obtain ⟨m, hm, rfl⟩ := List.mem_map.1 ha
      rw [h1 m hm]; rfl
    obtain ⟨t, ht⟩ := lamFold_cons pre
    unfold lamStep
    rw [hn]
    refine List.mem_append_right _ ?_
    simp only [List.mem_flatMap, List.mem_map, List.mem_range]
    exact ⟨0, one_pos, x, hx, by rw [ht]; simp⟩
  obtain ⟨c1, c2, r1, r2, rfl⟩ : ∃ c1 c2, List.Forall₂ (· ∈ ·) c1 pre ∧ List.Forall₂ (· ∈ ·) c2 (l :: post) ∧ c = c1 ++ c2 := by
    exact ⟨c.take pre.length, c.drop pre.length, List.forall₂_take_append _ _ _ hc, List.forall₂_drop_append _ _ _ hc,
      (List.take_append_drop _ _).symm⟩
  cases r2 with
  | cons hx r3 =>
    rw [List.sum_append, List.sum_cons, sum_zeros pre h1 r1, sum_zeros post h2 r3, zero_add, add_zero]
    have := lamFold_mono (pre ++ [l]) post _ (hin _ hx)
    rwa [List.append_assoc] at this

/-- the lists of local values which have to be combined: those of the primes whose square divides the discriminant -/
def localLists (lg : ℤ → K) (discr : ℤ) (data : List (ℤ × ℤ × ℤ)) : List (List K) :=
  (data.filter fun t => (t.1 * t.1 ∣ discr : Bool)).map fun t => (lambdaBad1 t.1 t.2.1 t.2.2).map fun q => (q : K) * lg t.1

theorem lambdaBad_eq (lg : ℤ → K) (discr : ℤ) (data : List (ℤ × ℤ × ℤ)) (h0 : ∀ t ∈ data, t.1 ≠ 0) :
    lambdaBad lg discr data = lamFold (localLists lg discr data) := by
  induction data using List.reverseRecOn with
  | nil => rfl
  | append_singleton data t ih =>
    have ih := ih (fun s hs => h0 s (by simp [hs]))
    have ht := h0 t (by simp)
    have hd : div (t.1 * t.1) discr = decide (t.1 * t.1 ∣ discr) := by
      unfold div
      rw [if_neg (mul_ne_zero ht ht)]
      congr 1
      exact propext ⟨Int.dvd_of_fmod_eq_zero, Int.fmod_eq_zero_of_dvd⟩
    unfold lambdaBad at ih ⊢
    rw [List.foldl_append, ih]
    unfold localLists
    simp only [List.foldl_cons, List.foldl_nil, List.filter_append, List.map_append, hd]
    by_cases hdv : t.1 * t.1 ∣ discr
    · simp [hdv, lamFold_snoc]
    · simp [hdv]

/-- **C125** (`lambda_bad`), when at most one prime has more than the value 0: the vector returned has exactly the sums of the local
values, one for each prime. In general every entry is such a sum, if 0 is a value at every prime, and `nlambda` is the number of
choices; no entry beyond the vector is read. -/
theorem C125_partial (lg : ℤ → K) (discr : ℤ) (data : List (ℤ × ℤ × ℤ)) (hp : ∀ t ∈ data, t.1 ≠ 0) :
    ((∀ l ∈ localLists lg discr data, (0 : K) ∈ l) → ∀ v ∈ (lambdaBad lg discr data).1, IsSum (localLists lg discr data) v) ∧
    (lambdaBad lg discr data).2 = ((localLists lg discr data).map List.length).prod ∧
    (lambdaBad lg discr data).2 ≤ (lambdaBad lg discr data).1.length ∧
    (∀ pre l post, localLists lg discr data = pre ++ l :: post → (∀ m ∈ pre, m = [0]) → (∀ m ∈ post, m = [0]) →
      ∀ v, IsSum (localLists lg discr data) v → v ∈ (lambdaBad lg discr data).1) := by
  rw [lambdaBad_eq _ _ _ hp]
  refine ⟨lamFold_sound _, (lamFold_len _).1, (lamFold_len _).2, ?_⟩
  intro pre l post h h1 h2 v hv
  rw [h] at hv ⊢
  exact lamFold_complete pre post l h1 h2 v hv

/-- the hypotheses with type I2 at 2 and I1 at 3 -/
example := C125_partial (K := ℝ) (fun p => Real.log p) 12 [(2, 20, 2), (3, 10, 1)] (by simp)

/-- **C125**, negative: with reduction of type I2 at 2 and 3 the sum of the two non-zero values is not in the vector: the loop goes on
from the first `nlambda` entries of the vector, which begins with the entries of the earlier passages. -/
theorem C125_missing :
    IsSum (localLists (fun p => Real.log p) 36 [(2, 20, 2), (3, 20, 2)]) (-(1 / 2) * Real.log 2 + -(1 / 2) * Real.log 3) ∧
      -(1 / 2) * Real.log 2 + -(1 / 2) * Real.log 3 ∉ (lambdaBad (fun p => Real.log p) 36 [(2, 20, 2), (3, 20, 2)]).1 := by
  have l2 : Real.log 2 > 0 := Real.log_pos (by norm_num)
  have l3 : Real.log 3 > 0 := Real.log_pos (by norm_num)
  have e : ∀ p : ℤ, lambdaBad1 p 20 2 = [0, -(1 / 2)] := by
    intro p
    unfold lambdaBad1
    rw [if_pos (by decide)]
    have : (1 + Int.tdiv (Int.tdiv 20 10) 2).toNat = 2 := by decide
    rw [this]
    norm_num [List.range_succ]
  have hl : localLists (fun p => Real.log p) 36 [(2, 20, 2), (3, 20, 2)] =
      [[0, -(1 / 2) * Real.log 2], [0, -(1 / 2) * Real.log 3]] := by
    unfold localLists
    norm_num
    rw [e, e]
    norm_num
  constructor
  · rw [hl]
    exact ⟨[-(1 / 2) * Real.log 2, -(1 / 2) * Real.log 3], by simp, by simp⟩
  · rw [lambdaBad_eq _ _ _ (by simp), hl]
    simp only [lamFold, lamStep, List.foldl_cons, List.foldl_nil]
    simp [List.range_succ]
    refine ⟨?_, ?_, ?_, by norm_num, ?_, by norm_num⟩ <;> intro h <;> linarith

end Eclib.Lambda
