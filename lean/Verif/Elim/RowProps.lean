import Verif.Elim.OrdProps
import Verif.Mat.Modp

/-!
# Rows of smat_elim.cc as linear forms modulo p
-/

namespace Eclib.Elim

set_option linter.unusedSectionVars false

open Svec (T smod)
open Mat (cast_smod smod_abs_lt smod_zero_iff sinvmod_cast pne)

variable {q : ℕ} [hq : Fact q.Prime]

/-- the columns of a row -/
def keys (l : Row) : List ℕ := l.map (·.1)

/-- the linear form of a row -/
def dot (q : ℕ) (l : Row) (x : ℕ → ZMod q) : ZMod q := (l.map fun e => (e.2 : ZMod q) * x e.1).sum

/-- the entry in column `c` -/
def coef (q : ℕ) (l : Row) (c : ℕ) : ZMod q := dot q l (fun i => if i = c then 1 else 0)

/-- a row as the code keeps it: columns increasing and in range, no entry zero modulo `q`; machine
integers are less than `q` in absolute value -/
structure RowOk (t : T) (q nco : ℕ) (l : Row) : Prop where
  sorted : (keys l).Pairwise (· < ·)
  range : ∀ c ∈ keys l, 1 ≤ c ∧ c ≤ nco
  nz : ∀ e ∈ l, (e.2 : ZMod q) ≠ 0
  bd : ∀ e ∈ l, t ≠ .big → |e.2| < q

@[simp] theorem dot_nil (x : ℕ → ZMod q) : dot q [] x = 0 := rfl

@[simp] theorem dot_cons (e : ℕ × ℤ) (l : Row) (x : ℕ → ZMod q) : dot q (e :: l) x = (e.2 : ZMod q) * x e.1 + dot q l x := by
  simp [dot]

theorem dot_congr {l : Row} {x y : ℕ → ZMod q} (h : ∀ c ∈ keys l, x c = y c) : dot q l x = dot q l y := by
  unfold dot
  congr 1
  apply List.map_congr_left
  intro e he
  rw [h e.1 (List.mem_map_of_mem he)]

@[simp] theorem keys_cons (e : ℕ × ℤ) (l : Row) : keys (e :: l) = e.1 :: keys l := rfl

@[simp] theorem keys_nil : keys [] = [] := rfl

theorem coef_of_notMem {l : Row} {c : ℕ} (h : c ∉ keys l) : coef q l c = 0 := by
  unfold coef
  rw [dot_congr (y := fun _ => 0) (fun d hd => by
    rw [if_neg]; rintro rfl; exact h hd)]
  simp [dot]

theorem RowOk.tail {t : T} {nco : ℕ} {e : ℕ × ℤ} {l : Row} (h : RowOk t q nco (e :: l)) : RowOk t q nco l :=
  ⟨(List.pairwise_cons.1 h.sorted).2, fun c hc => h.range c (by simp [hc]), fun e he => h.nz e (by simp [he]),
    fun e he => h.bd e (by simp [he])⟩

theorem RowOk.lt {t : T} {nco : ℕ} {e : ℕ × ℤ} {l : Row} (h : RowOk t q nco (e :: l)) : ∀ c ∈ keys l, e.1 < c :=
  (List.pairwise_cons.1 h.sorted).1

theorem coef_of_mem {t : T} {nco : ℕ} {l : Row} (h : RowOk t q nco l) {e : ℕ × ℤ} (he : e ∈ l) :
    coef q l e.1 = (e.2 : ZMod q) := by
  induction l with
  | nil => simp at he
  | cons f l ih =>
    have h1 := h.lt
    unfold coef
    rw [dot_cons]
    rcases List.mem_cons.1 he with rfl | he
    · rw [if_pos rfl, mul_one]
      change _ + coef q l e.1 = _
      rw [coef_of_notMem (fun h2 => lt_irrefl _ (h1 _ h2)), add_zero]
    · have := h1 e.1 (List.mem_map_of_mem he)
      rw [if_neg this.ne, mul_zero, zero_add]
      exact ih h.tail he

theorem coef_ne_zero_iff {t : T} {nco : ℕ} {l : Row} (h : RowOk t q nco l) (c : ℕ) : coef q l c ≠ 0 ↔ c ∈ keys l := by
  constructor
  · intro h1
    by_contra h2
    exact h1 (coef_of_notMem h2)
  · intro h1
    obtain ⟨e, he, rfl⟩ := List.mem_map.1 h1
    rw [coef_of_mem h he]
    exact h.nz e he

/-! ### scalars -/

theorem xmm_cast (t : T) (a b : ℤ) : ((xmm t a b q : ℤ) : ZMod q) = (a : ZMod q) * (b : ZMod q) := by
  unfold xmm
  split_ifs with h1 h2 h3 h4
  · simp [h1]
  · simp [h2]
  · simp [h3]
  · simp [h4]
  · have hf : ((a * b).fmod q : ℤ) = (a * b) - q * (a * b).fdiv q := by
      have := Int.mul_fdiv_add_fmod (a * b) q
      linarith
    have ht : ((a * b).tmod q : ℤ) = (a * b) - q * (a * b).tdiv q := by
      have := Int.mul_tdiv_add_tmod (a * b) q
      linarith
    cases t
    · simp only [ht]; push_cast; simp
    · simp only [ht]; push_cast; simp
    · simp only [hf]; push_cast; simp

theorem xmm_lt {t : T} (ht : t ≠ .big) {a b : ℤ} (ha : |a| < q) (hb : |b| < q) : |xmm t a b q| < q := by
  have h0 : (0 : ℤ) < q := by exact_mod_cast hq.out.pos
  have h : |(a * b).tmod q| < q := by
    rw [abs_lt]
    exact ⟨Int.lt_tmod_of_pos _ h0, Int.tmod_lt_of_pos _ h0⟩
  unfold xmm
  split_ifs
  · exact hb
  · rwa [abs_neg]
  · exact ha
  · rwa [abs_neg]
  · cases t
    · exact h
    · exact h
    · exact absurd rfl ht

theorem addmod_cast (t : T) (a b : ℤ) : ((addmod t a b q : ℤ) : ZMod q) = (a : ZMod q) + (b : ZMod q) := by
  unfold addmod
  split_ifs with h1 h2
  · simp [h1]
  · simp [h2]
  · rw [cast_smod]; push_cast; rfl

theorem addmod_lt {t : T} {a b : ℤ} (ha : |a| < q) (hb : |b| < q) : |addmod t a b q| < q := by
  unfold addmod
  split_ifs
  · exact hb
  · exact ha
  · exact smod_abs_lt t _

theorem addmod_zero {t : T} {a b : ℤ} (ha : (a : ZMod q) ≠ 0) (hb : (b : ZMod q) ≠ 0) :
    addmod t a b q = 0 ↔ (a : ZMod q) + (b : ZMod q) = 0 := by
  unfold addmod
  rw [if_neg (by rintro rfl; simp at ha), if_neg (by rintro rfl; simp at hb), smod_zero_iff]
  push_cast
  rfl

theorem run_iter (s : Arith.BezoutState) : ∃ n, s.run = Arith.Props.iter n s ∧ ∀ m < n, (Arith.Props.iter m s).b ≠ 0 := by
  fun_induction Arith.BezoutState.run s with
  | case1 s h => exact ⟨0, rfl, by omega⟩
  | case2 s h ih =>
    obtain ⟨n, h1, h2⟩ := ih
    refine ⟨n + 1, h1, fun m hm => ?_⟩
    cases m with
    | zero => exact h
    | succ m => exact h2 m (by omega)

theorem invmod_lt {a : ℤ} (ha : (a : ZMod q) ≠ 0) (hb : |a| < q) : |Arith.invmod a q| < q := by
  have h1 : |Arith.invmod a q| ≤ q := by
    obtain ⟨n, h1, h2⟩ := run_iter (Arith.BezoutState.init a q)
    have h3 := (Arith.Props.C01_bezout_bounded a q n h2).2.2.1
    rw [← h1] at h3
    have h4 : max (max |a| |(q : ℤ)|) 1 = q := by
      have := hq.out.one_lt
      rw [Nat.abs_cast, max_eq_right hb.le, max_eq_left]
      exact_mod_cast this.le
    rw [h4] at h3
    unfold Arith.invmod Arith.bezout
    simp only []
    split_ifs
    · simpa using h3
    · simp
    · exact h3
    · simp
  have h2 := sinvmod_cast Marith.Props.xgcd0 .long ha
  rcases lt_or_eq_of_le h1 with h | h
  · exact h
  · exfalso
    have : ((Arith.invmod a q : ℤ) : ZMod q) = 0 := by
      rcases abs_choice (Arith.invmod a q) with h3 | h3 <;> rw [h3] at h
      · rw [h]; simp
      · have : Arith.invmod a q = -q := by linarith
        rw [this]; simp
    have h3 : Mat.sinvmod Marith.Props.xgcd0 .long a q = Arith.invmod a q := rfl
    rw [h3, this, mul_zero] at h2
    exact zero_ne_one h2

/-! ### looking up and normalizing -/

theorem rowLook_spec {t : T} {nco : ℕ} {l : Row} (h : RowOk t q nco l) {c : ℕ} (hc : c ∈ keys l) :
    ∃ k v, rowLook l c = some (k, v) ∧ l[k]? = some (c, v) := by
  obtain ⟨⟨c', v⟩, he, rfl⟩ := List.mem_map.1 hc
  obtain ⟨u, w, hl⟩ := List.append_of_mem he
  subst hl
  have hs : (keys u ++ c' :: keys w).Pairwise (· < ·) := by
    have := h.sorted
    simpa [keys] using this
  obtain ⟨g1, g2, _⟩ := pairwise_append_lt hs
  have hlen : (keys u).length = u.length := by simp [keys]
  have hL : (u ++ (c', v) :: w).length = u.length + w.length + 1 := by simp; omega
  have hL2 : (keys u ++ c' :: keys w).length = u.length + w.length + 1 := by simp [keys]; omega
  have hrd : ∀ i, i < (u ++ (c', v) :: w).length → ∃ y, rd ((u ++ (c', v) :: w).map fun e => some e.1) i = some y ∧
      (y < c' ↔ i < u.length) := by
    intro i hi'
    have hi : i < (keys u ++ c' :: keys w).length := by omega
    have e : ((u ++ (c', v) :: w).map fun e => some e.1) = (keys u ++ c' :: keys w).map some ++ [] := by
      simp [keys, Function.comp_def]
    refine ⟨_, by rw [e]; exact rd_append_left hi, ?_⟩
    by_cases d : i < u.length
    · rw [List.getElem_append_left (by omega)]
      exact ⟨fun _ => d, fun _ => g1 _ (List.getElem_mem _)⟩
    · rw [List.getElem_append_right (by omega)]
      refine ⟨fun h => ?_, fun h => absurd h d⟩
      exfalso
      have hi2 : i - (keys u).length < (c' :: keys w).length := by simp at hi ⊢; omega
      rcases List.mem_cons.1 (List.getElem_mem hi2) with h3 | h3
      · omega
      · have := g2 _ h3
        omega
  have hf : rowFind (u ++ (c', v) :: w) c' = some u.length := by
    unfold rowFind
    simp only []
    obtain ⟨y, hy, hy2⟩ := hrd ((u ++ (c', v) :: w).length - 1) (by omega)
    rw [hy]
    simp only []
    have h1 : ¬ y < c' := by rw [hy2]; omega
    rw [if_neg h1]
    refine findLoop_gen _ _ _ _ _ _ (by omega) (by omega) (by simp) ?_
    intro i _ hi
    exact hrd i (by omega)
  have hg : (u ++ (c', v) :: w)[u.length]? = some (c', v) := by simp
  refine ⟨u.length, v, ?_, hg⟩
  unfold rowLook
  rw [hf]
  simp only []
  rw [hg]
  simp

/-- `normalize`: a multiple with entry 1 in column `col0` -/
theorem normalize_spec (X : Marith.XGcd) {t : T} {nco : ℕ} {l : Row} (h : RowOk t q nco l) {c : ℕ} (hc : c ∈ keys l) :
    ∃ l' u, normalize X t q l c = some l' ∧ RowOk t q nco l' ∧ keys l' = keys l ∧ u ≠ 0 ∧
      (∀ x, dot q l' x = u * dot q l x) ∧ coef q l' c = 1 := by
  obtain ⟨k, v, h1, h2⟩ := rowLook_spec h hc
  have hmem : (c, v) ∈ l := List.mem_of_getElem? h2
  have hcv : coef q l c = (v : ZMod q) := coef_of_mem h hmem
  have hv := h.nz _ hmem
  unfold normalize
  rw [h1]
  simp only []
  by_cases hv1 : v = 1
  · rw [if_neg (by simpa using hv1)]
    exact ⟨l, 1, rfl, h, rfl, one_ne_zero, by simp, by rw [hcv, hv1]; simp⟩
  · rw [if_pos hv1]
    have hinv := sinvmod_cast X t hv
    obtain ⟨w, hw⟩ : ∃ w, w = Mat.sinvmod X t v q := ⟨_, rfl⟩
    rw [← hw] at hinv ⊢
    have hdot : ∀ x, dot q (l.map fun e => (e.1, xmm t e.2 w q)) x = (w : ZMod q) * dot q l x := by
      intro x
      clear h1 h2 hmem hcv hc h
      induction l with
      | nil => simp
      | cons e l ih =>
        rw [List.map_cons, dot_cons, dot_cons, ih, xmm_cast]
        ring
    have hw0 : (w : ZMod q) ≠ 0 := fun h0 => by rw [h0, mul_zero] at hinv; exact zero_ne_one hinv
    have hkeys : keys (l.map fun e => (e.1, xmm t e.2 w q)) = keys l := by simp [keys, Function.comp_def]
    refine ⟨_, w, rfl, ⟨by rw [hkeys]; exact h.sorted, by rw [hkeys]; exact h.range, ?_, ?_⟩, hkeys, hw0, hdot, ?_⟩
    · intro e he
      obtain ⟨f, hf, rfl⟩ := List.mem_map.1 he
      rw [xmm_cast]
      exact mul_ne_zero (h.nz f hf) hw0
    · intro e he ht
      obtain ⟨f, hf, rfl⟩ := List.mem_map.1 he
      refine xmm_lt ht (h.bd f hf ht) ?_
      have : w = Arith.invmod v q := by
        rw [hw]
        cases t
        · rfl
        · rfl
        · exact absurd rfl ht
      rw [this]
      exact invmod_lt hv (h.bd _ hmem ht)
    · unfold coef at hcv ⊢
      rw [hdot, hcv, mul_comm]
      exact hinv

/-! ### adding a multiple of a row -/

theorem merge_dot (t : T) (v2 : ℤ) (r1 r2 : Row) (x : ℕ → ZMod q) :
    dot q (merge t q v2 r1 r2).1 x = (v2 : ZMod q) * dot q r1 x + dot q r2 x := by
  fun_induction merge t q v2 r1 r2 with
  | case1 r2 => simp
  | case2 c1 x1 r1 r ih => simp only [dot_cons, xmm_cast, dot_nil, r] at ih ⊢; rw [ih]; ring
  | case3 c1 x1 r1 c2 x2 r2 hlt r ih => simp only [dot_cons, xmm_cast, r] at ih ⊢; rw [ih]; ring
  | case4 c1 x1 r1 c2 x2 r2 hlt1 hlt2 r ih => simp only [dot_cons, r] at ih ⊢; rw [ih]; ring
  | case5 c1 x1 r1 c2 x2 r2 hlt1 hlt2 r s hs ih =>
    have hc : c1 = c2 := by omega
    subst hc
    have hs' : (s : ZMod q) = (v2 : ZMod q) * x1 + x2 := by simp only [s]; rw [addmod_cast, xmm_cast]
    rw [hs] at hs'
    simp only [dot_cons, r] at ih ⊢
    rw [ih]
    have e : (v2 : ZMod q) * (x1 * x c1) + x2 * x c1 = 0 := by
      have : (v2 : ZMod q) * x1 + x2 = 0 := by rw [← hs']; simp
      linear_combination (x c1) * this
    linear_combination -e
  | case6 c1 x1 r1 c2 x2 r2 hlt1 hlt2 r s hs ih =>
    have hc : c1 = c2 := by omega
    subst hc
    have hs' : (s : ZMod q) = (v2 : ZMod q) * x1 + x2 := by simp only [s]; rw [addmod_cast, xmm_cast]
    simp only [dot_cons, r] at ih ⊢
    rw [ih, hs']
    ring

theorem merge_keys (t : T) (p v2 : ℤ) (r1 r2 : Row) : ∀ c ∈ keys (merge t p v2 r1 r2).1, c ∈ keys r1 ∨ c ∈ keys r2 := by
  fun_induction merge t p v2 r1 r2 with
  | case1 r2 => simp
  | case2 c1 x1 r1 r ih => 
    intro c hc
    simp only [keys_cons, List.mem_cons] at hc ⊢
    rcases hc with h | h
    · exact Or.inl (Or.inl h)
    · rcases ih c h with h | h
      · exact Or.inl (Or.inr h)
      · exact Or.inr h
  | case3 c1 x1 r1 c2 x2 r2 hlt r ih =>
    intro c hc
    simp only [keys_cons, List.mem_cons] at hc ih ⊢
    rcases hc with h | h
    · exact Or.inl (Or.inl h)
    · have := ih c h; tauto
  | case4 c1 x1 r1 c2 x2 r2 hlt1 hlt2 r ih =>
    intro c hc
    simp only [keys_cons, List.mem_cons] at hc ih ⊢
    rcases hc with h | h
    · exact Or.inr (Or.inl h)
    · have := ih c h; tauto
  | case5 c1 x1 r1 c2 x2 r2 hlt1 hlt2 r s hs ih =>
    intro c hc
    simp only [keys_cons, List.mem_cons] at hc ih ⊢
    have := ih c hc; tauto
  | case6 c1 x1 r1 c2 x2 r2 hlt1 hlt2 r s hs ih =>
    intro c hc
    simp only [keys_cons, List.mem_cons] at hc ih ⊢
    rcases hc with h | h
    · exact Or.inr (Or.inl h)
    · have := ih c h; tauto

theorem RowOk.cons {t : T} {nco c : ℕ} {v : ℤ} {l : Row} (h : RowOk t q nco l) (h1 : 1 ≤ c ∧ c ≤ nco)
    (h2 : ∀ d ∈ keys l, c < d) (h3 : (v : ZMod q) ≠ 0) (h4 : t ≠ .big → |v| < q) : RowOk t q nco ((c, v) :: l) where
  sorted := List.pairwise_cons.2 ⟨h2, h.sorted⟩
  range := fun d hd => by
    rcases List.mem_cons.1 hd with rfl | hd
    exacts [h1, h.range d hd]
  nz := fun e he => by
    rcases List.mem_cons.1 he with rfl | he
    exacts [h3, h.nz e he]
  bd := fun e he => by
    rcases List.mem_cons.1 he with rfl | he
    exacts [h4, h.bd e he]

theorem merge_ok {t : T} {nco : ℕ} {v2 : ℤ} (hv : (v2 : ZMod q) ≠ 0) (hvb : t ≠ .big → |v2| < q) {r1 r2 : Row}
    (h1 : RowOk t q nco r1) (h2 : RowOk t q nco r2) : RowOk t q nco (merge t q v2 r1 r2).1 := by
  have key := merge_keys t (q : ℤ) v2
  fun_induction merge t q v2 r1 r2 with
  | case1 r2 => exact h2
  | case2 c1 x1 r1 r ih =>
    refine (ih h1.tail h2).cons (h1.range c1 (by simp)) (fun d hd => ?_) ?_ ?_
    · rcases key _ _ d hd with h | h
      · exact h1.lt d h
      · simp at h
    · rw [xmm_cast]; exact mul_ne_zero hv (h1.nz (c1, x1) (by simp))
    · exact fun ht => xmm_lt ht (hvb ht) (h1.bd (c1, x1) (by simp) ht)
  | case3 c1 x1 r1 c2 x2 r2 hlt r ih =>
    refine (ih h1.tail h2).cons (h1.range c1 (by simp)) (fun d hd => ?_) ?_ ?_
    · rcases key _ _ d hd with h | h
      · exact h1.lt d h
      · rcases List.mem_cons.1 h with rfl | h
        · exact hlt
        · have := h2.lt d h
          dsimp at this
          omega
    · rw [xmm_cast]; exact mul_ne_zero hv (h1.nz (c1, x1) (by simp))
    · exact fun ht => xmm_lt ht (hvb ht) (h1.bd (c1, x1) (by simp) ht)
  | case4 c1 x1 r1 c2 x2 r2 hlt1 hlt2 r ih =>
    refine (ih h1 h2.tail).cons (h2.range c2 (by simp)) (fun d hd => ?_) (h2.nz (c2, x2) (by simp)) (h2.bd (c2, x2) (by simp))
    rcases key _ _ d hd with h | h
    · rcases List.mem_cons.1 h with rfl | h
      · exact hlt2
      · have := h1.lt d h
        dsimp at this
        omega
    · exact h2.lt d h
  | case5 c1 x1 r1 c2 x2 r2 hlt1 hlt2 r s hs ih => exact ih h1.tail h2.tail
  | case6 c1 x1 r1 c2 x2 r2 hlt1 hlt2 r s hs ih =>
    have hc : c1 = c2 := by omega
    subst hc
    have hx : ((xmm t v2 x1 q : ℤ) : ZMod q) ≠ 0 := by rw [xmm_cast]; exact mul_ne_zero hv (h1.nz (c1, x1) (by simp))
    have hx2 := h2.nz (c1, x2) (by simp)
    refine (ih h1.tail h2.tail).cons (h2.range c1 (by simp)) (fun d hd => ?_) ?_ ?_
    · rcases key _ _ d hd with h | h
      · exact h1.lt d h
      · exact h2.lt d h
    · intro h
      apply hs
      simp only [s] at h ⊢
      rw [addmod_cast] at h
      rw [addmod_zero hx hx2]
      exact h
    · exact fun ht => addmod_lt (xmm_lt ht (hvb ht) (h1.bd (c1, x1) (by simp) ht)) (h2.bd (c1, x2) (by simp) ht)

/-- the event for a column of the row which is added -/
def evOf (r2 r : Row) (e : ℕ × ℤ) : Ev :=
  if e.1 ∈ keys r2 then (if e.1 ∈ keys r then .stay else .isOut) else .isIn

theorem evs_congr {r1 r2 r2' r r' : Row} (h : ∀ c ∈ keys r1, (c ∈ keys r2 ↔ c ∈ keys r2') ∧ (c ∈ keys r ↔ c ∈ keys r')) :
    r1.map (evOf r2 r) = r1.map (evOf r2' r') := by
  apply List.map_congr_left
  intro e he
  obtain ⟨h1, h2⟩ := h e.1 (List.mem_map_of_mem he)
  unfold evOf
  simp only [h1, h2]

theorem merge_evs {t : T} {nco : ℕ} {v2 : ℤ} {r1 r2 : Row}
    (h1 : RowOk t q nco r1) (h2 : RowOk t q nco r2) : (merge t q v2 r1 r2).2 = r1.map (evOf r2 (merge t q v2 r1 r2).1) := by
  have key := merge_keys t (q : ℤ) v2
  fun_induction merge t q v2 r1 r2 with
  | case1 r2 => rfl
  | case2 c1 x1 r1 r ih =>
    dsimp only
    rw [List.map_cons]
    refine congrArg₂ _ (by simp [evOf]) ?_
    rw [show r.2 = _ from ih h1.tail h2]
    apply evs_congr
    intro c hc
    have := h1.lt c hc
    simp [r, this.ne']
  | case3 c1 x1 r1 c2 x2 r2 hlt r ih =>
    dsimp only
    have hc1 : c1 ∉ keys ((c2, x2) :: r2) := by
      intro h
      rcases List.mem_cons.1 h with h | h
      · dsimp at h; omega
      · have := h2.lt _ h; dsimp at this; omega
    rw [List.map_cons]
    refine congrArg₂ _ (by rw [evOf, if_neg hc1]) ?_
    rw [show r.2 = _ from ih h1.tail h2]
    apply evs_congr
    intro c hc
    have := h1.lt c hc
    simp [r, this.ne']
  | case4 c1 x1 r1 c2 x2 r2 hlt1 hlt2 r ih =>
    dsimp only
    rw [show r.2 = _ from ih h1 h2.tail]
    apply evs_congr
    intro c hc
    have : c2 < c := by
      rcases List.mem_cons.1 hc with rfl | hc
      · exact hlt2
      · have := h1.lt c hc; dsimp at this; omega
    simp [r, this.ne']
  | case5 c1 x1 r1 c2 x2 r2 hlt1 hlt2 r s hs ih =>
    have hc : c1 = c2 := by omega
    subst hc
    dsimp only
    rw [List.map_cons]
    have hn : c1 ∉ keys r.1 := by
      intro h
      rcases key _ _ _ h with h | h
      · have := h1.lt _ h; dsimp at this; omega
      · have := h2.lt _ h; dsimp at this; omega
    refine congrArg₂ _ (by rw [evOf, if_pos (by simp), if_neg hn]) ?_
    rw [show r.2 = _ from ih h1.tail h2.tail]
    apply evs_congr
    intro c hc
    have := h1.lt c hc
    simp [r, this.ne']
  | case6 c1 x1 r1 c2 x2 r2 hlt1 hlt2 r s hs ih =>
    have hc : c1 = c2 := by omega
    subst hc
    dsimp only
    rw [List.map_cons]
    refine congrArg₂ _ (by rw [evOf, if_pos (by simp), if_pos (by simp)]) ?_
    rw [show r.2 = _ from ih h1.tail h2.tail]
    apply evs_congr
    intro c hc
    have := h1.lt c hc
    simp [r, this.ne']

end Eclib.Elim
