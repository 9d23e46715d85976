import Verif.Mw.Proc

/-!
# C119, C120: lists of points, saturation, an example, the conversion of points
-/

namespace Eclib.Mw

set_option linter.unusedSectionVars false

variable {K : Type} [Field K] [LinearOrder K] [IsStrictOrderedRing K] [FloorRing K]
variable {A : Type} [AddCommGroup A] [DecidableEq A]

/-- what `C119_process_partial` assumes of the point and the state -/
structure Good (B : A →+ A →+ K) (S : St K A) (P : A) : Prop where
  rank : S.rank < 30
  piv : ∀ i < S.rank, PivOk S.rank (getMinor (fun u v => B (Function.update S.b S.rank P u) (Function.update S.b S.rank P v)) i S.rank)
  gap : Indep (S.rank + 1) (Function.update S.b S.rank P) →
    1 / 10 ^ 4 < |(gram B (S.rank + 1) (Function.update S.b S.rank P)).det / (gram B S.rank S.b).det|
  dep : ¬ Indep (S.rank + 1) (Function.update S.b S.rank P) → ∃ m : ℤ, 1 ≤ m ∧ m ≤ 3162 ∧ m • P ∈ Sp S.rank S.b

theorem processAll_spec {V : Env K A} {B : A →+ A →+ K} (h : V.Ok B) (hpp : V.pp = true) {fuel : ℕ} (hf : 5 * 10 ^ 6 < fuel) :
    ∀ (l : List A) (flag : Bool) (S : St K A), Inv B S →
      (∀ l1 P l2, l = l1 ++ P :: l2 → ∀ S1 : St K A, Inv B S1 → Sp S1.rank S1.b = Sp S.rank S.b ⊔ AddSubgroup.closure {Q | Q ∈ l1} → Good B S1 P) →
      ∃ flag' S', processAll V fuel l flag S = some (flag', S') ∧ Inv B S' ∧ S.rank ≤ S'.rank ∧
        Sp S'.rank S'.b = Sp S.rank S.b ⊔ AddSubgroup.closure {Q | Q ∈ l} := by
  intro l
  induction l with
  | nil => intro flag S I _; exact ⟨flag, S, rfl, I, le_rfl, by simp⟩
  | cons P l ih =>
    intro flag S I hg
    have hG := hg [] P l rfl S I (by simp)
    obtain ⟨f, S1, h1, I1, h2, h3, h4, h5, h6, h7⟩ := Props.C119_process_partial h hpp hf 0 I P hG.rank hG.piv hG.gap hG.dep
    have hS1 := h4 le_rfl
    have hcl : ∀ l1 : List A, AddSubgroup.closure {Q | Q ∈ P :: l1} = AddSubgroup.zmultiples P ⊔ AddSubgroup.closure {Q | Q ∈ l1} := by
      intro l1
      rw [AddSubgroup.zmultiples_eq_closure, ← AddSubgroup.closure_union]
      congr 1
      ext Q
      simp
    obtain ⟨f', S', g1, g2, g3, g4⟩ := ih (flag || f) S1 I1 fun l1 Q l2 he S2 I2 hS2 => by
      refine hg (P :: l1) Q l2 (by rw [he]; rfl) S2 I2 ?_
      rw [hS2, hS1, hcl, sup_assoc]
    have hrk : S.rank ≤ S1.rank := by
      by_cases hi : Indep (S.rank + 1) (Function.update S.b S.rank P)
      · rw [h5 hi]; omega
      · rw [h6 hi]
    refine ⟨f', S', ?_, g2, hrk.trans g3, ?_⟩
    · unfold processAll
      rw [h1]
      exact g1
    · rw [g4, hS1, hcl, sup_assoc]

namespace Props

/-- processing a list of points: if what `C119_process_partial` assumes holds at each step, the basis is independent, with the torsion points it
generates the group generated by the old basis and the points of the list (a group in which this has finite index when there is saturation),
and matrix and regulator are right -/
theorem C119_list_partial {V : Env K A} {B : A →+ A →+ K} (h : V.Ok B) (hpp : V.pp = true) {fuel : ℕ} (hf : 5 * 10 ^ 6 < fuel) (sat : ℤ) (l : List A)
    {S : St K A} (I : Inv B S)
    (hg : ∀ l1 P l2, l = l1 ++ P :: l2 → ∀ S1 : St K A, Inv B S1 → Sp S1.rank S1.b = Sp S.rank S.b ⊔ AddSubgroup.closure {Q | Q ∈ l1} → Good B S1 P)
    (hpiv : sat > 0 → ∀ S1 : St K A, Inv B S1 → Sp S.rank S.b ⊔ AddSubgroup.closure {Q | Q ∈ l} ≤ Sp S1.rank S1.b →
      PivOk S1.rank fun i j => B (S1.b i) (S1.b j)) :
    ∃ flag S', processList V fuel sat S l = some (flag, S') ∧ Inv B S' ∧ Sp S.rank S.b ⊔ AddSubgroup.closure {Q | Q ∈ l} ≤ Sp S'.rank S'.b ∧
      (∀ y ∈ Sp S'.rank S'.b, ∃ m : ℤ, 0 < m ∧ m • y ∈ Sp S.rank S.b ⊔ AddSubgroup.closure {Q | Q ∈ l}) ∧
      (sat ≤ 0 → Sp S'.rank S'.b = Sp S.rank S.b ⊔ AddSubgroup.closure {Q | Q ∈ l}) := by
  obtain ⟨flag, S1, h1, I1, _, h2⟩ := processAll_spec h hpp hf l false S I hg
  unfold processList
  rw [h1]
  simp only
  by_cases hs : sat > 0 ∧ S1.rank > 0
  · rw [if_pos hs]
    have key : ∀ b : ℕ → A, Indep S1.rank b → Sp S1.rank S1.b ≤ Sp S1.rank b →
        det S1.rank (regram V S1.rank b S1.hp) = some (gram B S1.rank b).det := by
      intro b hb hle
      have e : ∀ i j, i < S1.rank → j < S1.rank → regram V S1.rank b S1.hp i j = B (b i) (b j) := fun i j hi hj => regram_eq h _ _ _ hi hj
      have hp := hpiv hs.1 ⟨S1.rank, b, fun i j => B (b i) (b j), (gram B S1.rank b).det⟩ ⟨hb, fun _ _ _ _ => rfl, rfl⟩ (by rw [← h2]; exact hle)
      rw [C118_det_partial _ _ (PivOk_congr _ _ _ e hp)]
      congr 2
      ext i j
      exact e i j i.2 j.2
    by_cases h3 : (V.sat sat S1.rank S1.b).1 > 1
    · obtain ⟨s1, s2, s3, s4⟩ := sat_spec h I1.indep sat h3
      simp only [if_pos h3]
      rw [key _ s1 s3]
      refine ⟨_, _, rfl, ⟨s1, fun i j hi hj => regram_eq h _ _ _ hi hj, rfl⟩, by rw [← h2]; exact s3, by rw [← h2]; exact s4, fun h0 => absurd hs.1 (by omega)⟩
    · simp only [if_neg h3]
      rw [key _ I1.indep le_rfl]
      refine ⟨_, _, rfl, ⟨I1.indep, fun i j hi hj => regram_eq h _ _ _ hi hj, rfl⟩, h2.ge, ?_, fun _ => h2⟩
      intro y hy
      exact ⟨1, one_pos, by rw [one_smul, ← h2]; exact hy⟩
  · rw [if_neg hs]
    refine ⟨_, _, rfl, I1, h2.ge, ?_, fun _ => h2⟩
    intro y hy
    exact ⟨1, one_pos, by rw [one_smul, ← h2]; exact hy⟩

/-- `mw::saturate` for positive rank: the points remain independent, the matrix and the regulator are right, the group contains the old one with finite index -/
theorem C119_saturate_partial {V : Env K A} {B : A →+ A →+ K} (h : V.Ok B) (sat : ℤ) (index0 : ℕ) {S : St K A} (I : Inv B S) (hr : 0 < S.rank) :
    Inv B (saturate V sat index0 S).2 ∧ (saturate V sat index0 S).2.rank = S.rank ∧ Sp S.rank S.b ≤ Sp S.rank (saturate V sat index0 S).2.b ∧
      ∀ y ∈ Sp S.rank (saturate V sat index0 S).2.b, ∃ m : ℤ, 0 < m ∧ m • y ∈ Sp S.rank S.b := by
  unfold saturate
  simp only [if_pos hr, gt_iff_lt]
  by_cases h1 : 1 < (V.sat sat S.rank S.b).1
  · rw [if_pos h1]
    obtain ⟨s1, s2, s3, s4⟩ := sat_spec h I.indep sat h1
    refine ⟨⟨s1, fun i j hi hj => regram_eq h _ _ _ hi hj, ?_⟩, rfl, s3, s4⟩
    rw [I.reg]
    exact s2
  · rw [if_neg h1]
    exact ⟨I, rfl, le_rfl, fun y hy => ⟨1, one_pos, by rwa [one_smul]⟩⟩

end Props

/-! ## an example -/

/-- the sum of products -/
def dotB : (ℤ × ℤ × ℤ) →+ (ℤ × ℤ × ℤ) →+ ℚ where
  toFun P := { toFun := fun Q => ((P.1 * Q.1 + P.2.1 * Q.2.1 + P.2.2 * Q.2.2 : ℤ) : ℚ), map_zero' := by simp, map_add' := by intro x y; simp; ring }
  map_zero' := by ext <;> simp
  map_add' := by intro x y; ext <;> simp <;> ring

/-- the group of triples of integers with this pairing -/
def exV : Env ℚ (ℤ × ℤ × ℤ) where
  h P := ((P.1 ^ 2 + P.2.1 ^ 2 + P.2.2 ^ 2 : ℤ) : ℚ)
  ord P := if P = 0 then 1 else -1
  sat _ _ b := (1, b)
  maxrank := 999
  pp := true

theorem ex_tors (P : ℤ × ℤ × ℤ) : IsOfFinAddOrder P ↔ P = 0 := by
  constructor
  · intro h
    obtain ⟨n, hn, h⟩ := isOfFinAddOrder_iff_nsmul_eq_zero.1 h
    obtain ⟨a, b, c⟩ := P
    simp only [Prod.smul_mk, Prod.mk_eq_zero, smul_eq_mul, nsmul_eq_mul, mul_eq_zero, Nat.cast_eq_zero] at h
    obtain ⟨h1, h2, h3⟩ := h
    simp only [Prod.mk_eq_zero]
    omega
  · rintro rfl
    exact IsOfFinAddOrder.zero

theorem exV_ok : exV.Ok dotB where
  symm P Q := by simp [dotB]; ring
  h P := by simp [dotB, exV]; ring
  ord P := by
    rw [ex_tors]
    unfold exV
    by_cases h : P = 0 <;> simp [h]
  nondeg n x hi := by
    intro h0
    let M : Matrix (Fin n) (Fin n) ℤ := Matrix.of fun i j => (x i).1 * (x j).1 + (x i).2.1 * (x j).2.1 + (x i).2.2 * (x j).2.2
    have hM : gram dotB n x = M.map (Int.cast : ℤ → ℚ) := by
      ext i j
      rfl
    have hd : M.det = 0 := by
      have := (Int.castRingHom ℚ).map_det M
      rw [hM] at h0
      simp only [Int.coe_castRingHom, RingHom.mapMatrix_apply] at this
      rw [h0] at this
      exact_mod_cast this
    obtain ⟨v, hv, hMv⟩ := Matrix.exists_mulVec_eq_zero_iff.2 hd
    apply hv
    apply hi
    rw [ex_tors]
    set u := ∑ i : Fin n, v i • x i with hu
    have e1 : u.1 = ∑ i : Fin n, v i * (x i).1 := by simp [hu, Prod.fst_sum]
    have e2 : u.2.1 = ∑ i : Fin n, v i * (x i).2.1 := by simp [hu, Prod.fst_sum, Prod.snd_sum]
    have e3 : u.2.2 = ∑ i : Fin n, v i * (x i).2.2 := by simp [hu, Prod.snd_sum]
    have hk : ∀ i : Fin n, (x i).1 * u.1 + (x i).2.1 * u.2.1 + (x i).2.2 * u.2.2 = 0 := by
      intro i
      have := congrFun hMv i
      simp only [Matrix.mulVec, dotProduct, M, Matrix.of_apply, Pi.zero_apply] at this
      rw [← this, e1, e2, e3, Finset.mul_sum, Finset.mul_sum, Finset.mul_sum, ← Finset.sum_add_distrib, ← Finset.sum_add_distrib]
      exact Finset.sum_congr rfl fun j _ => by ring
    have hs : u.1 * u.1 + u.2.1 * u.2.1 + u.2.2 * u.2.2 = 0 := by
      have : u.1 * u.1 + u.2.1 * u.2.1 + u.2.2 * u.2.2 = ∑ i : Fin n, v i * ((x i).1 * u.1 + (x i).2.1 * u.2.1 + (x i).2.2 * u.2.2) := by
        have g1 : ∀ w : ℤ, u.1 * w = ∑ i : Fin n, v i * (x i).1 * w := fun w => by rw [e1, Finset.sum_mul]
        have g2 : ∀ w : ℤ, u.2.1 * w = ∑ i : Fin n, v i * (x i).2.1 * w := fun w => by rw [e2, Finset.sum_mul]
        have g3 : ∀ w : ℤ, u.2.2 * w = ∑ i : Fin n, v i * (x i).2.2 * w := fun w => by rw [e3, Finset.sum_mul]
        rw [g1 u.1, g2 u.2.1, g3 u.2.2, ← Finset.sum_add_distrib, ← Finset.sum_add_distrib]
        exact Finset.sum_congr rfl fun j _ => by ring
      rw [this]
      exact Finset.sum_eq_zero fun i _ => by rw [hk, mul_zero]
    have h1 : u.1 = 0 := by nlinarith [mul_self_nonneg u.1, mul_self_nonneg u.2.1, mul_self_nonneg u.2.2]
    have h2 : u.2.1 = 0 := by nlinarith [mul_self_nonneg u.1, mul_self_nonneg u.2.1, mul_self_nonneg u.2.2]
    have h3 : u.2.2 = 0 := by nlinarith [mul_self_nonneg u.1, mul_self_nonneg u.2.1, mul_self_nonneg u.2.2]
    exact Prod.ext h1 (Prod.ext h2 h3)
  sat s n x _ h := by simp [exV] at h

/-- no points -/
def exS0 : St ℚ (ℤ × ℤ × ℤ) := ⟨0, fun _ => 0, fun _ _ => 0, 1⟩

theorem exS0_inv : Inv dotB exS0 := ⟨fun c _ => funext fun i => absurd i.2 (by simp [exS0]), fun i j hi => absurd hi (by simp [exS0]), by
  show (1 : ℚ) = (gram dotB 0 _).det
  rw [Matrix.det_fin_zero]⟩

/-- three points of length 1 -/
def exS3 : St ℚ (ℤ × ℤ × ℤ) :=
  ⟨3, fun i => if i = 0 then (1, 0, 0) else if i = 1 then (0, 1, 0) else (0, 0, 1), fun i j => if i = j then 1 else 0, 1⟩

theorem exS3_gram : (gram dotB exS3.rank exS3.b).det = 1 := by
  show (gram dotB 3 exS3.b).det = 1
  rw [Matrix.det_fin_three]
  simp [gram, dotB, exS3]

theorem exS3_inv : Inv dotB exS3 := by
  refine ⟨gram_ne (B := dotB) (by rw [exS3_gram]; norm_num), ?_, by rw [exS3_gram]; rfl⟩
  intro i j hi hj
  have hi' : i < 3 := hi
  have hj' : j < 3 := hj
  interval_cases i <;> interval_cases j <;> simp [exS3, dotB]

namespace Props

/-- orthogonal points: the sum of three points of length 1 is counted as a fourth generator, because a minor is found to be 0 -/
theorem C119_orthogonal : exV.Ok dotB ∧ Inv dotB exS3 ∧ (1 : ℤ) • ((1, 1, 1) : ℤ × ℤ × ℤ) ∈ Sp exS3.rank exS3.b ∧
    (process exV 9 0 exS3 (1, 1, 1)).map (fun (r : Bool × St ℚ (ℤ × ℤ × ℤ)) => r.2.rank) = some 4 := by
  refine ⟨exV_ok, exS3_inv, ?_, by decide +kernel⟩
  refine mem_Sp.2 ⟨fun _ => 1, ?_⟩
  rw [ex_tors]
  show (1 : ℤ) • ((1, 1, 1) : ℤ × ℤ × ℤ) - ∑ i : Fin 3, (1 : ℤ) • exS3.b i = 0
  rw [Fin.sum_univ_three]
  simp [exS3]

/-- the flag returned does not tell whether the rank has increased -/
theorem C119_flag : (processList exV 9 0 exS0 [(1, 0, 0)]).map (fun (r : Bool × St ℚ (ℤ × ℤ × ℤ)) => (r.1, r.2.rank)) = some (false, 1) := by
  decide +kernel

/-- without points `mw::saturate` uses the value of the variable of the caller, which has not been set: the regulator is changed -/
theorem C119_saturate_empty : (saturate exV 100 7 exS0).2.reg = 1 / 49 ∧ exS0.reg = 1 := by
  constructor
  · decide +kernel
  · rfl

/-- twice a point, then three times the point: the index 2 is gained -/
example : (processList exV 99 0 exS0 [(2, 0, 0), (0, 3, 1), (3, 0, 0)]).map
    (fun (r : Bool × St ℚ (ℤ × ℤ × ℤ)) => (r.2.rank, r.2.b 0, r.2.b 1, r.2.reg)) = some (2, (0, 3, 1), (-1, 0, 0), 10) := by decide +kernel

end Props

/-- one point -/
def exS1 : St ℚ (ℤ × ℤ × ℤ) := ⟨1, fun _ => (2, 0, 0), fun _ _ => 4, 4⟩

theorem exS1_inv : Inv dotB exS1 := by
  have hd : (gram dotB exS1.rank exS1.b).det = 4 := by
    show (gram dotB 1 fun _ => (2, 0, 0)).det = 4
    rw [Matrix.det_fin_one]
    norm_num [gram, dotB]
  refine ⟨gram_ne (B := dotB) (by rw [hd]; norm_num), ?_, by rw [hd]; rfl⟩
  intro i j _ _
  norm_num [exS1, dotB]

/-- the assumptions of `C119_process_partial` for a dependent point -/
example : Good dotB exS1 (3, 0, 0) := by
  have hn : ¬ Indep (exS1.rank + 1) (Function.update exS1.b exS1.rank (3, 0, 0)) := by
    intro h
    have := h (fun i => if (i : ℕ) = 0 then -3 else 2) (by
      rw [ex_tors]
      show ∑ i : Fin 2, _ = _
      rw [Fin.sum_univ_two]
      simp [exS1])
    have := congrFun this 0
    simp at this
  refine ⟨by simp [exS1], fun i hi => ?_, fun h => absurd h hn, fun _ => ⟨2, by norm_num, by norm_num, ?_⟩⟩
  · show PivOk 1 _
    trivial
  · refine mem_Sp.2 ⟨fun _ => 3, ?_⟩
    rw [ex_tors]
    show (2 : ℤ) • ((3, 0, 0) : ℤ × ℤ × ℤ) - ∑ i : Fin 1, (3 : ℤ) • exS1.b i = 0
    rw [Fin.sum_univ_one]
    simp [exS1]

namespace Props

/-- and for an independent one, with the conclusion -/
example : ∃ flag S', process exV (5 * 10 ^ 6 + 1) 0 exS0 (2, 0, 0) = some (flag, S') ∧ Inv dotB S' ∧ S'.rank = 1 := by
  have hi : Indep (exS0.rank + 1) (Function.update exS0.b exS0.rank (2, 0, 0)) := by
    apply gram_ne (B := dotB)
    show (gram dotB 1 _).det ≠ 0
    rw [Matrix.det_fin_one]
    simp [gram, dotB, exS0]
  obtain ⟨f, S', h1, h2, -, -, -, h3, -⟩ := C119_process_partial exV_ok rfl (show 5 * 10 ^ 6 < 5 * 10 ^ 6 + 1 by omega) 0 exS0_inv (2, 0, 0) (by simp [exS0])
    (fun i hi => absurd hi (by simp [exS0])) (fun _ => by
      show 1 / 10 ^ 4 < |(gram dotB 1 (Function.update (fun _ => 0) 0 (2, 0, 0))).det / (gram dotB 0 fun _ => 0).det|
      rw [Matrix.det_fin_one, Matrix.det_fin_zero]
      norm_num [gram, dotB]) (fun h => absurd hi h)
  exact ⟨f, S', h1, h2, h3 hi⟩

/-- the conversion of a point found by the sieve for `process(x,y,z,sat)` (mwprocs.cc:203-224): with `z = rz²` not 0, the triple lies on the model on
which the points are searched (mwprocs.cc:664-680) exactly if the point lies on the curve -/
theorem C120_convert (a1 a2 a3 a4 a6 x y rz : ℤ) (iso : Bool) (hrz : rz ≠ 0) (hiso : iso = false → a1 = 0 ∧ a3 = 0) :
    let b2 := a1 * a1 + 4 * a2
    let b4 := 2 * a4 + a1 * a3
    let b6 := a3 * a3 + 4 * a6
    let c := searchModel iso a2 a4 a6 b2 b4 b6
    let P := convert iso a1 a3 x y (rz ^ 2) rz
    (y ^ 2 = c.2.2.2 * x ^ 3 + c.2.2.1 * x ^ 2 * (rz ^ 2) + c.2.1 * x * (rz ^ 2) ^ 2 + c.1 * (rz ^ 2) ^ 3) ↔
      P.2.2 ≠ 0 ∧ P.2.1 ^ 2 * P.2.2 + a1 * P.1 * P.2.1 * P.2.2 + a3 * P.2.1 * P.2.2 ^ 2 =
        P.1 ^ 3 + a2 * P.1 ^ 2 * P.2.2 + a4 * P.1 * P.2.2 ^ 2 + a6 * P.2.2 ^ 3 := by
  have h3 : rz ^ 2 * rz ≠ 0 := mul_ne_zero (pow_ne_zero 2 hrz) hrz
  cases iso with
  | false =>
    obtain ⟨rfl, rfl⟩ := hiso rfl
    simp only [searchModel, convert, Bool.false_eq_true, if_false]
    constructor
    · intro h
      exact ⟨h3, by linear_combination rz ^ 3 * h⟩
    · rintro ⟨-, h⟩
      apply mul_left_cancel₀ (pow_ne_zero 3 hrz)
      linear_combination h
  | true =>
    simp only [searchModel, convert, if_true]
    constructor
    · intro h
      exact ⟨mul_ne_zero h3 (by norm_num), by linear_combination 8 * rz ^ 3 * h⟩
    · rintro ⟨-, h⟩
      apply mul_left_cancel₀ (mul_ne_zero (show (8 : ℤ) ≠ 0 by norm_num) (pow_ne_zero 3 hrz))
      linear_combination h

/-- `y² + y = x³ - x` and the point `(0,0)`: on the model `Y² = X³ - 16 X + 16` the point is `(0,4)` -/
example : convert true 0 1 0 4 1 1 = (0, 0, 8) ∧ searchModel true 0 (-1) 0 0 (-2) 1 = (16, -16, 0, 1) := by decide +kernel

end Props

end Eclib.Mw
