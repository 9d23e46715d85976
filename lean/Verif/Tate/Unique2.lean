import Verif.Tate.Unique

/-!
# Uniqueness of the type
-/

namespace Eclib.Tate

open WeierstrassCurve

/-- along a chain of conditions, each implying that the previous ones did not stop, two related
objects stop at the same place -/
theorem chain_unique {α : Type*} {lev stop : ℕ → α → Prop} {R : α → α → Prop}
    (h1 : ∀ i W, lev (i + 1) W → lev i W ∧ ¬ stop i W)
    (h2 : ∀ i W V, R W V → lev i W → lev i V → stop i W → stop i V) {W V : α} {i j : ℕ} (hij : i < j)
    (hR : R W V) (hi : lev i W) (hs : stop i W) (hj : lev j V) : False := by
  have down : ∀ d, lev (i + 1 + d) V → lev (i + 1) V := by
    intro d
    induction d with
    | zero => exact id
    | succ d ih => exact fun h => ih (h1 _ _ h).1
  obtain ⟨d, rfl⟩ : ∃ d, j = i + 1 + d := ⟨j - i - 1, by omega⟩
  have h := h1 _ _ (down d hj)
  exact h.2 (h2 _ _ _ hR hi h.1 hs)

/-- the common part of the two chains -/
def levC (p : ℤ) (W : WeierstrassCurve ℤ) : ℕ → Prop
  | 0 => True
  | 1 => Lev1 p W
  | 2 => Lev2 p W
  | 3 => Lev3 p W
  | 4 => Lev4 p W
  | _ => Lev5 p W

def stopC (p : ℤ) (W : WeierstrassCurve ℤ) : ℕ → Prop
  | 0 => ¬ p ∣ W.Δ
  | 1 => ¬ p ∣ W.b₂
  | 2 => ¬ p ^ 2 ∣ W.a₆
  | 3 => ¬ p ^ 3 ∣ W.b₈
  | 4 => ¬ p ^ 3 ∣ W.b₆
  | _ => ¬ p ^ 7 ∣ cubDisc W

/-- the chain through the types `I*m` -/
def levA (p : ℤ) (i : ℕ) (W : WeierstrassCurve ℤ) : Prop :=
  if i ≤ 5 then levC p W i else StarLev p W (i - 5)

def stopA (p : ℤ) (i : ℕ) (W : WeierstrassCurve ℤ) : Prop :=
  if i ≤ 5 then stopC p W i
  else if i % 2 = 0 then ¬ p ^ (i - 5 + 4) ∣ W.a₃ ^ 2 + 4 * W.a₆
  else ¬ p ^ (i - 5 + 5) ∣ W.a₄ ^ 2 - 4 * W.a₂ * W.a₆

/-- the chain through the types IV*, III*, II* -/
def levB (p : ℤ) (i : ℕ) (W : WeierstrassCurve ℤ) : Prop :=
  if i ≤ 5 then levC p W i
  else if i = 6 then Lev6 p W
  else if i = 7 then Lev7 p W
  else if i = 8 then Lev7 p W ∧ p ^ 4 ∣ W.a₄
  else if i = 9 then Lev7 p W ∧ p ^ 4 ∣ W.a₄ ∧ p ^ 6 ∣ W.a₆
  else False

def stopB (p : ℤ) (i : ℕ) (W : WeierstrassCurve ℤ) : Prop :=
  if i ≤ 5 then stopC p W i
  else if i = 6 then ¬ p ^ 5 ∣ W.a₃ ^ 2 + 4 * W.a₆
  else if i = 7 then ¬ p ^ 4 ∣ W.a₄
  else if i = 8 then ¬ p ^ 6 ∣ W.a₆
  else True

variable {p : ℤ} {W V : WeierstrassCurve ℤ}

theorem levC_succ {i : ℕ} (hi : i < 5) (h : levC p W (i + 1)) : levC p W i ∧ ¬ stopC p W i := by
  interval_cases i
  · exact ⟨trivial, fun h0 => h0 (Lev1.disc h)⟩
  · have h : Lev2 p W := h
    exact ⟨h.toLev1, fun h0 => h0 h.b2⟩
  · have h : Lev3 p W := h
    exact ⟨h.toLev2, fun h0 => h0 h.a6'⟩
  · have h : Lev4 p W := h
    exact ⟨h.toLev3, fun h0 => h0 h.b8⟩
  · have h : Lev5 p W := h
    exact ⟨h.lev4.1, fun h0 => h0 h.lev4.2⟩

theorem stopC_inv (hp : Prime p) (h : Sim W V) {i : ℕ} (hi : i ≤ 5) (hW : levC p W i) (hV : levC p V i)
    (hs : stopC p W i) : stopC p V i := by
  obtain ⟨r, s, t, h⟩ := sim_iff.1 h
  interval_cases i
  · have hs : ¬ p ∣ W.Δ := hs
    show ¬ p ∣ V.Δ
    rwa [h.disc]
  · exact fun h0 => hs ((inv_b2 hp h hW hV).2 h0)
  · exact fun h0 => hs ((inv_a6 hp h (Lev2.toLev1 hW) (Lev2.toLev1 hV)).2 h0)
  · exact fun h0 => hs ((inv_b8 hp h hW hV).2 h0)
  · exact fun h0 => hs ((inv_b6 hp h hW hV).2 h0)
  · exact fun h0 => hs ((inv_cubDisc hp h hW hV).2 h0)

theorem levA_succ (i : ℕ) (W : WeierstrassCurve ℤ) (h : levA p (i + 1) W) : levA p i W ∧ ¬ stopA p i W := by
  unfold levA stopA at *
  rcases lt_trichotomy i 5 with hi | rfl | hi
  · rw [if_pos (by omega)] at h
    rw [if_pos (by omega), if_pos (by omega)]
    exact levC_succ hi h
  · rw [if_neg (by norm_num)] at h
    rw [if_pos (by norm_num), if_pos (by norm_num)]
    have h : StarLev p W 1 := h
    refine ⟨h.lev5 (by norm_num), fun h0 => h0 ?_⟩
    have := Val.of1 h.a2
    have : Val p W.a₄ 3 := ⟨h.a4⟩
    have : Val p W.a₆ 4 := ⟨h.a6⟩
    unfold cubDisc; pv
  · rw [if_neg (by omega)] at h
    rw [if_neg (by omega), if_neg (by omega)]
    obtain ⟨j, rfl⟩ : ∃ j, i = j + 6 := ⟨i - 6, by omega⟩
    have h : StarLev p W (j + 1 + 1) := by rwa [show j + 6 + 1 - 5 = j + 1 + 1 by omega] at h
    refine ⟨?_, ?_⟩
    · rw [show j + 6 - 5 = j + 1 by omega]; exact h.pred
    · have := Val.of1 h.a2
      have : Val p W.a₃ ((j + 1 + 1 + 4) / 2) := ⟨h.a3⟩
      have : Val p W.a₄ ((j + 1 + 1 + 5) / 2) := ⟨h.a4⟩
      have : Val p W.a₆ (j + 1 + 1 + 3) := ⟨h.a6⟩
      split_ifs with hj
      · exact fun h0 => h0 (by pv)
      · exact fun h0 => h0 (by pv)

theorem stopA_inv (hp : Prime p) (i : ℕ) (W V : WeierstrassCurve ℤ) (h : Sim W V) (hW : levA p i W)
    (hV : levA p i V) (hs : stopA p i W) : stopA p i V := by
  unfold levA stopA at *
  split_ifs at * with hi h2
  · exact stopC_inv hp h hi hW hV hs
  · obtain ⟨r, s, t, h⟩ := sim_iff.1 h
    exact fun h0 => hs ((inv_star_odd hp h (by omega) hW hV).2 h0)
  · obtain ⟨r, s, t, h⟩ := sim_iff.1 h
    exact fun h0 => hs ((inv_star_even hp h (by omega) (by omega) hW hV).2 h0)

theorem levB_succ (i : ℕ) (W : WeierstrassCurve ℤ) (h : levB p (i + 1) W) : levB p i W ∧ ¬ stopB p i W := by
  rcases lt_or_ge i 5 with hi | hi
  · unfold levB stopB at *
    rw [if_pos (by omega)] at h
    rw [if_pos (by omega), if_pos (by omega)]
    exact levC_succ hi h
  rcases lt_or_ge i 9 with h9 | h9
  · interval_cases i
    · have h : Lev6 p W := h
      refine ⟨h.lev5, fun h0 => h0 ?_⟩
      have : Val p W.a₂ 2 := ⟨h.a2⟩
      have : Val p W.a₄ 3 := ⟨h.a4⟩
      have : Val p W.a₆ 4 := ⟨h.a6⟩
      unfold cubDisc; pv
    · have h : Lev7 p W := h
      exact ⟨h.lev6.1, fun h0 => h0 h.lev6.2⟩
    · have h : Lev7 p W ∧ p ^ 4 ∣ W.a₄ := h
      exact ⟨h.1, fun h0 => h0 h.2⟩
    · have h : Lev7 p W ∧ p ^ 4 ∣ W.a₄ ∧ p ^ 6 ∣ W.a₆ := h
      exact ⟨⟨h.1, h.2.1⟩, fun h0 => h0 h.2.2⟩
  · unfold levB at h
    rw [if_neg (by omega), if_neg (by omega), if_neg (by omega), if_neg (by omega), if_neg (by omega)] at h
    exact h.elim

theorem stopB_inv (hp : Prime p) (i : ℕ) (W V : WeierstrassCurve ℤ) (h : Sim W V) (hW : levB p i W)
    (hV : levB p i V) (hs : stopB p i W) : stopB p i V := by
  obtain ⟨r, s, t, h'⟩ := sim_iff.1 h
  unfold levB stopB at *
  split_ifs at * with hi h6 h7 h8
  · exact stopC_inv hp h hi hW hV hs
  · exact fun h0 => hs ((inv_IVstar hp h' hW hV).2 h0)
  · exact fun h0 => hs ((inv_IIIstar hp h' hW hV).2 h0)
  · exact fun h0 => hs ((inv_IIstar hp h' hW.1 hV.1 hW.2).2 h0)

/-! ### the place of a type in its chain -/

/-- the place in chain A -/
def posA : Kodaira → Option ℕ
  | .I 0 => some 0
  | .I (_ + 1) => some 1
  | .II => some 2
  | .III => some 3
  | .IV => some 4
  | .Istar m => some (5 + m)
  | .IVstar => none
  | .IIIstar => none
  | .IIstar => none

/-- the place in chain B -/
def posB : Kodaira → Option ℕ
  | .I 0 => some 0
  | .I (_ + 1) => some 1
  | .II => some 2
  | .III => some 3
  | .IV => some 4
  | .Istar 0 => some 5
  | .Istar (_ + 1) => none
  | .IVstar => some 6
  | .IIIstar => some 7
  | .IIstar => some 8

theorem sq_dvd {x : ℤ} (h : p ^ 2 ∣ x) : p ∣ x := (dvd_pow_self p (by norm_num)).trans h

/-- `I 0` is special: nothing excludes `p ∣ a3` … there -/
theorem NF.chain {q : ℕ} {k : Kodaira} {c : ℕ} (h : NF q W k c) :
    (∀ i, posA k = some i → levA q i W ∧ stopA q i W) ∧ (∀ i, posB k = some i → levB q i W ∧ stopB q i W) := by
  constructor
  · intro i hi
    cases k with
    | I n =>
      cases n with
      | zero => cases hi; exact ⟨trivial, h.1⟩
      | succ n => cases hi; exact ⟨⟨h.1, h.2.1, h.2.2.1⟩, h.2.2.2.1⟩
    | II => cases hi; exact ⟨⟨⟨h.1, h.2.1, h.2.2.1⟩, h.2.2.2.1⟩, h.2.2.2.2.1⟩
    | III => cases hi; exact ⟨⟨⟨⟨h.1, h.2.1, sq_dvd h.2.2.2.1⟩, h.2.2.1⟩, h.2.2.2.1⟩, h.2.2.2.2.1⟩
    | IV => cases hi; exact ⟨⟨⟨⟨⟨h.1, h.2.1, sq_dvd h.2.2.2.1⟩, h.2.2.1⟩, h.2.2.2.1⟩, h.2.2.2.2.1⟩, h.2.2.2.2.2.1⟩
    | Istar m =>
      cases m with
      | zero => cases hi; exact ⟨⟨h.1, h.2.1, h.2.2.1, h.2.2.2.1, h.2.2.2.2.1⟩, h.2.2.2.2.2.1⟩
      | succ m =>
        cases hi
        unfold levA stopA
        rw [if_neg (by omega), if_neg (by omega), show 5 + (m + 1) - 5 = m + 1 by omega]
        refine ⟨h.1, ?_⟩
        have h2 := h.2
        by_cases hm : (m + 1) % 2 = 1
        · rw [if_pos hm] at h2
          rw [if_pos (by omega)]; exact h2.1
        · rw [if_neg hm] at h2
          rw [if_neg (by omega)]; exact h2.1
    | IVstar => cases hi
    | IIIstar => cases hi
    | IIstar => cases hi
  · intro i hi
    cases k with
    | I n =>
      cases n with
      | zero => cases hi; exact ⟨trivial, h.1⟩
      | succ n => cases hi; exact ⟨⟨h.1, h.2.1, h.2.2.1⟩, h.2.2.2.1⟩
    | II => cases hi; exact ⟨⟨⟨h.1, h.2.1, h.2.2.1⟩, h.2.2.2.1⟩, h.2.2.2.2.1⟩
    | III => cases hi; exact ⟨⟨⟨⟨h.1, h.2.1, sq_dvd h.2.2.2.1⟩, h.2.2.1⟩, h.2.2.2.1⟩, h.2.2.2.2.1⟩
    | IV => cases hi; exact ⟨⟨⟨⟨⟨h.1, h.2.1, sq_dvd h.2.2.2.1⟩, h.2.2.1⟩, h.2.2.2.1⟩, h.2.2.2.2.1⟩, h.2.2.2.2.2.1⟩
    | Istar m =>
      cases m with
      | zero => cases hi; exact ⟨⟨h.1, h.2.1, h.2.2.1, h.2.2.2.1, h.2.2.2.2.1⟩, h.2.2.2.2.2.1⟩
      | succ m => cases hi
    | IVstar => cases hi; exact ⟨⟨h.1, h.2.1, h.2.2.1, h.2.2.2.1, h.2.2.2.2.1⟩, h.2.2.2.2.2.1⟩
    | IIIstar => cases hi; exact ⟨⟨h.1, h.2.1, h.2.2.1, h.2.2.2.1, h.2.2.2.2.1⟩, h.2.2.2.2.2.1⟩
    | IIstar =>
      cases hi
      exact ⟨⟨⟨h.1, h.2.1, h.2.2.1, (pow_dvd_pow _ (by norm_num)).trans h.2.2.2.1, h.2.2.2.2.1⟩, h.2.2.2.1⟩,
        h.2.2.2.2.2.1⟩

theorem NM.chain {q : ℕ} (h : NM q W) : levB q 9 W ∧ stopB q 9 W :=
  ⟨⟨⟨h.1, h.2.1, h.2.2.1, (pow_dvd_pow _ (by norm_num)).trans h.2.2.2.1,
    (pow_dvd_pow _ (by norm_num)).trans h.2.2.2.2⟩, h.2.2.2.1, h.2.2.2.2⟩, trivial⟩

theorem same_A (hp : Prime p) {i j : ℕ} (h : Sim W V) (hi : levA p i W ∧ stopA p i W)
    (hj : levA p j V ∧ stopA p j V) : i = j := by
  rcases lt_trichotomy i j with hij | rfl | hij
  · exact (chain_unique (lev := levA p) (stop := stopA p) (R := Sim) levA_succ (stopA_inv hp) hij h hi.1 hi.2 hj.1).elim
  · rfl
  · exact (chain_unique (lev := levA p) (stop := stopA p) (R := Sim) levA_succ (stopA_inv hp) hij h.symm hj.1 hj.2 hi.1).elim

theorem same_B (hp : Prime p) {i j : ℕ} (h : Sim W V) (hi : levB p i W ∧ stopB p i W)
    (hj : levB p j V ∧ stopB p j V) : i = j := by
  rcases lt_trichotomy i j with hij | rfl | hij
  · exact (chain_unique (lev := levB p) (stop := stopB p) (R := Sim) levB_succ (stopB_inv hp) hij h hi.1 hi.2 hj.1).elim
  · rfl
  · exact (chain_unique (lev := levB p) (stop := stopB p) (R := Sim) levB_succ (stopB_inv hp) hij h.symm hj.1 hj.2 hi.1).elim

/-- a double and a triple root exclude each other -/
theorem star_not_B (hp : Prime p) {m i : ℕ} (h : Sim W V) (hW : StarLev p W (m + 1)) (hi : 6 ≤ i)
    (hV : levB p i V) : False := by
  have h6 : Lev6 p V := by
    have : ∀ d, levB p (6 + d) V → levB p 6 V := by
      intro d
      induction d with
      | zero => exact id
      | succ d ih => exact fun h => ih (levB_succ _ _ h).1
    exact this (i - 6) (by rwa [show 6 + (i - 6) = i by omega])
  obtain ⟨r, s, t, h⟩ := sim_iff.1 h
  exact hW.x hp (by omega) ((inv_x hp h (hW.lev5 (by omega)) h6.lev5).2 h6.x)

/-- the exponent of a power exactly dividing is unique -/
theorem exact_pow {x : ℤ} {n m : ℕ} (h1 : p ^ n ∣ x) (h2 : ¬ p ^ (n + 1) ∣ x) (h3 : p ^ m ∣ x)
    (h4 : ¬ p ^ (m + 1) ∣ x) : n = m := by
  rcases lt_trichotomy n m with h | h | h
  · exact (h2 ((pow_dvd_pow p h).trans h3)).elim
  · exact h
  · exact (h4 ((pow_dvd_pow p h).trans h1)).elim

/-- two normal forms of the same equation have the same type -/
theorem NF.same {q : ℕ} (hq : q.Prime) {k k' : Kodaira} {c c' : ℕ} (h : Sim W V) (hW : NF q W k c)
    (hV : NF q V k' c') : k = k' := by
  have hp : Prime (q : ℤ) := Nat.prime_iff_prime_int.1 hq
  have hA : ∀ i j, posA k = some i → posA k' = some j → i = j := fun i j hi hj =>
    same_A hp h (hW.chain.1 i hi) (hV.chain.1 j hj)
  have hB : ∀ i j, posB k = some i → posB k' = some j → i = j := fun i j hi hj =>
    same_B hp h (hW.chain.2 i hi) (hV.chain.2 j hj)
  have hAB : ∀ m i, k = .Istar (m + 1) → posB k' = some i → 6 ≤ i → False := by
    intro m i hk hi h6
    subst hk
    exact star_not_B hp h hW.1 h6 (hV.chain.2 i hi).1
  have hBA : ∀ m i, k' = .Istar (m + 1) → posB k = some i → 6 ≤ i → False := by
    intro m i hk hi h6
    subst hk
    exact star_not_B hp h.symm hV.1 h6 (hW.chain.2 i hi).1
  have hI : ∀ n m, k = .I (n + 1) → k' = .I (m + 1) → n = m := by
    intro n m hk hk'
    subst hk hk'
    obtain ⟨r, s, t, h⟩ := sim_iff.1 h
    have hd := h.disc
    have h1 := hV.2.2.2.2.1
    have h2 := hV.2.2.2.2.2.1
    rw [hd] at h1 h2
    have := exact_pow hW.2.2.2.2.1 hW.2.2.2.2.2.1 h1 h2
    omega
  clear hW hV
  rcases k with (_ | n) | (_ | m) | _ | _ | _ | _ | _ | _ <;>
    rcases k' with (_ | n') | (_ | m') | _ | _ | _ | _ | _ | _ <;>
    first
      | rfl
      | (exfalso; have := hA _ _ rfl rfl; omega)
      | (exfalso; have := hB _ _ rfl rfl; omega)
      | (exfalso; exact hAB _ _ rfl rfl (by norm_num))
      | (exfalso; exact hBA _ _ rfl rfl (by norm_num))
      | (rw [hI _ _ rfl rfl])
      | (have := hA _ _ rfl rfl; congr 1; omega)

theorem NF.not_NM {q : ℕ} (hq : q.Prime) {k : Kodaira} {c : ℕ} (h : Sim W V) (hW : NF q W k c)
    (hV : NM q V) : False := by
  have hp : Prime (q : ℤ) := Nat.prime_iff_prime_int.1 hq
  have hB : ∀ i, posB k = some i → i = 9 := fun i hi => same_B hp h (hW.chain.2 i hi) hV.chain
  have hAB : ∀ m, k = .Istar (m + 1) → False := by
    intro m hk
    subst hk
    exact star_not_B hp h hW.1 (by norm_num) hV.chain.1
  clear hW hV
  rcases k with (_ | n) | (_ | m) | _ | _ | _ | _ | _ | _ <;>
    first
      | (have := hB _ rfl; omega)
      | exact hAB _ rfl

/-! ### the number of components -/

theorem Split.unique {P Q : Prop} {a b c c' : ℕ} (hPQ : P ↔ Q) (h : Split P c a b) (h' : Split Q c' a b) :
    c = c' := by
  unfold Split at *
  rw [hPQ] at h
  rcases h with ⟨h1, rfl⟩ | ⟨h1, rfl⟩ <;> rcases h' with ⟨h2, rfl⟩ | ⟨h2, rfl⟩
  · rfl
  · exact (h2 h1).elim
  · exact (h1 h2).elim
  · rfl

theorem comp_I (hp : Prime p) (h : Sim W V) (hW : Lev1 p W) (hV : Lev1 p V)
    (hT : ∃ T : ℤ, p ∣ T ^ 2 + W.a₁ * T - W.a₂) : ∃ T : ℤ, p ∣ T ^ 2 + V.a₁ * T - V.a₂ := by
  obtain ⟨r, s, t, h⟩ := sim_iff.1 h
  obtain ⟨hr, -⟩ := lev1_rt hp h hW hV
  obtain ⟨T, hT⟩ := hT
  refine ⟨T - s, ?_⟩
  rw [show (T - s) ^ 2 + V.a₁ * (T - s) - V.a₂ = (T ^ 2 + W.a₁ * T - W.a₂) - 3 * r by
    rw [h.a1, h.a2]; ring]
  exact dvd_sub hT (hr.mul_left 3)

/-- the double root of `T^2+a1 T-a2` -/
theorem exists_sigma (hp : Prime p) (hpos : 0 < p) (hb : p ∣ W.b₂) :
    ∃ σ : ℤ, p ∣ 2 * σ + W.a₁ ∧ p ∣ σ ^ 2 + W.a₁ * σ - W.a₂ := by
  by_cases h2 : p ∣ 2
  · have e2 : (p : ℤ) = 2 := by
      have h2' := Int.le_of_dvd (by norm_num) h2
      have : p ≠ 1 := fun h => hp.not_isUnit (by simp [h])
      omega
    subst e2
    have ha : (2 : ℤ) ∣ W.a₁ := by
      have : (2 : ℤ) ∣ W.a₁ ^ 2 := by
        rw [show W.a₁ ^ 2 = W.b₂ - 2 * (2 * W.a₂) by unfold b₂; ring]
        exact dvd_sub hb (dvd_mul_right _ _)
      exact hp.dvd_of_dvd_pow this
    refine ⟨W.a₂, dvd_add (dvd_mul_right _ _) ha, ?_⟩
    rw [show W.a₂ ^ 2 + W.a₁ * W.a₂ - W.a₂ = W.a₂ * (W.a₂ - 1) + W.a₁ * W.a₂ by ring]
    refine dvd_add ?_ (ha.mul_right _)
    rcases Int.even_or_odd' W.a₂ with ⟨k, e | e⟩
    · exact ⟨k * (W.a₂ - 1), by rw [e]; ring⟩
    · exact ⟨W.a₂ * k, by rw [e]; ring⟩
  · obtain ⟨k, hk⟩ : ∃ k, p = 2 * k + 1 := by
      rcases Int.even_or_odd' p with ⟨k, e | e⟩
      · exfalso
        have h2p : (2 : ℤ) ∣ p := ⟨k, e⟩
        rcases (Int.prime_iff_natAbs_prime.1 hp).eq_one_or_self_of_dvd 2 (by
          have := Int.natAbs_dvd_natAbs.2 h2p; simpa using this) with h | h
        · norm_num at h
        · exact h2 ⟨1, by omega⟩
      · exact ⟨k, e⟩
    refine ⟨k * W.a₁, ⟨W.a₁, by rw [hk]; ring⟩, ?_⟩
    have h4 : p ∣ 2 * (2 * ((k * W.a₁) ^ 2 + W.a₁ * (k * W.a₁) - W.a₂)) := by
      rw [show 2 * (2 * ((k * W.a₁) ^ 2 + W.a₁ * (k * W.a₁) - W.a₂)) = p * (p * W.a₁ ^ 2) - W.b₂ by
        rw [hk]; unfold b₂; ring]
      exact dvd_sub (dvd_mul_right _ _) hb
    exact ((hp.dvd_or_dvd ((hp.dvd_or_dvd h4).resolve_left h2))).resolve_left h2

theorem comp_IV (hp : Prime p) (hpos : 0 < p) (h : Sim W V) (hW : Lev4 p W) (hV : Lev4 p V)
    (hY : ∃ Y : ℤ, p ^ 3 ∣ (p * Y) ^ 2 + W.a₃ * (p * Y) - W.a₆) :
    ∃ Y : ℤ, p ^ 3 ∣ (p * Y) ^ 2 + V.a₃ * (p * Y) - V.a₆ := by
  obtain ⟨r, s, t, h⟩ := sim_iff.1 h
  obtain ⟨hr, ht⟩ := lev1_rt hp h hW.toLev1 hV.toLev1
  obtain ⟨σ, h1, h2⟩ := exists_sigma hp hpos hW.b2
  have := Val.of1 hr
  have := Val.of1 h1
  have := Val.of1 h2
  have := Val.of1 hW.b2
  have := Val.of1 hW.a3
  have := Val.of1 hW.a4
  have : Val p W.a₆ 2 := ⟨hW.a6'⟩
  have : Val p W.b₈ 3 := ⟨hW.b8⟩
  have h3 : p ^ 3 ∣ (W.a₄ - σ * W.a₃) ^ 2 := by
    rw [show (W.a₄ - σ * W.a₃) ^ 2 = -W.b₈ + W.b₂ * W.a₆ - W.a₃ * W.a₄ * (2 * σ + W.a₁)
      + W.a₃ ^ 2 * (σ * (2 * σ + W.a₁)) - W.a₃ ^ 2 * (σ ^ 2 + W.a₁ * σ - W.a₂) by unfold b₈ b₂; ring]
    pv
  have h4 : Val p (W.a₄ - σ * W.a₃) 2 := ⟨dvd_of_sq hp 1 (by norm_num) h3⟩
  obtain ⟨Y, hY⟩ := hY
  obtain ⟨r₁, e1⟩ := hr
  obtain ⟨t₁, e2⟩ := ht
  refine ⟨Y + σ * r₁ - t₁, ?_⟩
  rw [show p * (Y + σ * r₁ - t₁) = p * Y + σ * r - t by rw [e1, e2]; ring]
  have e : (p * Y + σ * r - t) ^ 2 + V.a₃ * (p * Y + σ * r - t) - V.a₆ =
      ((p * Y) ^ 2 + W.a₃ * (p * Y) - W.a₆) + (p * Y * r * (2 * σ + W.a₁)
        + r ^ 2 * (σ ^ 2 + W.a₁ * σ - W.a₂) - r * (W.a₄ - σ * W.a₃) - r ^ 3) := by
    rw [h.a3, h.a6]; ring
  rw [e]
  exact dvd_add hY (by pv)

/-- a root of the cubic at `T` -/
def IsCubRoot (p : ℤ) (W : WeierstrassCurve ℤ) (T : ℤ) : Prop :=
  p ^ 4 ∣ (p * T) ^ 3 + W.a₂ * (p * T) ^ 2 + W.a₄ * (p * T) + W.a₆

theorem IsCubRoot.congr (hW : Lev5 p W) {T U : ℤ} (hTU : p ∣ T - U) (h : IsCubRoot p W U) : IsCubRoot p W T := by
  obtain ⟨k, hk⟩ := hTU
  obtain rfl : T = U + p * k := by omega
  have := Val.of1 hW.a2
  have : Val p W.a₄ 2 := ⟨hW.a4⟩
  unfold IsCubRoot at *
  rw [show (p * (U + p * k)) ^ 3 + W.a₂ * (p * (U + p * k)) ^ 2 + W.a₄ * (p * (U + p * k)) + W.a₆ =
    ((p * U) ^ 3 + W.a₂ * (p * U) ^ 2 + W.a₄ * (p * U) + W.a₆) + (p ^ 4 * (3 * U ^ 2 * k + 3 * p * U * k ^ 2 + p ^ 2 * k ^ 3)
      + W.a₂ * p ^ 3 * (2 * U * k + p * k ^ 2) + W.a₄ * p ^ 2 * k) by ring]
  exact dvd_add h (by pv)

theorem cubRoots_le {q : ℕ} (hq : q.Prime) (h : Sim W V) (hW : Lev5 (q : ℤ) W) (hV : Lev5 (q : ℤ) V) :
    cubRoots q W ≤ cubRoots q V := by
  have hp : Prime (q : ℤ) := Nat.prime_iff_prime_int.1 hq
  have hq0 : (0 : ℤ) < q := by exact_mod_cast hq.pos
  obtain ⟨r, s, t, h⟩ := sim_iff.1 h
  obtain ⟨hr, hs, ht⟩ := lev5_rst hp h hW hV
  obtain ⟨d2, d4, d6⟩ := lev5_cubic hp h hW hV
  have : Val (q : ℤ) (V.a₂ - (W.a₂ + 3 * r)) 2 := ⟨d2⟩
  have : Val (q : ℤ) (V.a₄ - (W.a₄ + 2 * r * W.a₂ + 3 * r ^ 2)) 3 := ⟨d4⟩
  have : Val (q : ℤ) (V.a₆ - (W.a₆ + r * W.a₄ + r ^ 2 * W.a₂ + r ^ 3)) 4 := ⟨d6⟩
  have := Val.of1 hr
  obtain ⟨r₁, e1⟩ := hr
  have step : ∀ T : ℤ, IsCubRoot q W T → IsCubRoot q V (T - r₁) := by
    intro T hT
    unfold IsCubRoot at *
    rw [show (q : ℤ) * (T - r₁) = q * T - r by rw [e1]; ring]
    rw [show ((q : ℤ) * T - r) ^ 3 + V.a₂ * (q * T - r) ^ 2 + V.a₄ * (q * T - r) + V.a₆ =
      ((q * T) ^ 3 + W.a₂ * (q * T) ^ 2 + W.a₄ * (q * T) + W.a₆) +
      ((V.a₂ - (W.a₂ + 3 * r)) * (q * T - r) ^ 2
        + (V.a₄ - (W.a₄ + 2 * r * W.a₂ + 3 * r ^ 2)) * (q * T - r)
        + (V.a₆ - (W.a₆ + r * W.a₄ + r ^ 2 * W.a₂ + r ^ 3))) by ring]
    exact dvd_add hT (by pv)
  refine Finset.card_le_card_of_injOn (fun T : ℕ => (((T : ℤ) - r₁) % q).toNat) ?_ ?_
  · intro T hT
    simp only [Finset.coe_filter, Finset.mem_range, Set.mem_ofPred_eq] at hT ⊢
    have h0 := Int.emod_nonneg ((T : ℤ) - r₁) hq0.ne'
    have h1 := Int.emod_lt_of_pos ((T : ℤ) - r₁) hq0
    refine ⟨by omega, ?_⟩
    rw [Int.toNat_of_nonneg h0]
    refine IsCubRoot.congr hV ?_ (step T hT.2)
    rw [dvd_sub_comm]
    exact Int.dvd_self_sub_emod
  · intro T hT U hU hTU
    simp only [Finset.coe_filter, Finset.mem_range, Set.mem_ofPred_eq] at hT hU hTU
    have h0 := Int.emod_nonneg ((T : ℤ) - r₁) hq0.ne'
    have h1 := Int.emod_nonneg ((U : ℤ) - r₁) hq0.ne'
    have e : ((T : ℤ) - r₁) % q = ((U : ℤ) - r₁) % q := by omega
    have e' : (T : ℤ) % q = (U : ℤ) % q := by
      have := Int.ModEq.add_right r₁ (show (T : ℤ) - r₁ ≡ U - r₁ [ZMOD q] from e)
      simpa [Int.ModEq] using this
    rw [Int.emod_eq_of_lt (by omega) (by omega), Int.emod_eq_of_lt (by omega) (by omega)] at e'
    exact_mod_cast e'

theorem comp_star_odd (hp : Prime p) (h : Sim W V) {m : ℕ} (hm : m % 2 = 1) (hW : StarLev p W m)
    (hV : StarLev p V m)
    (hY : ∃ Y : ℤ, p ^ (m + 4) ∣ (p ^ ((m + 3) / 2) * Y) ^ 2 + W.a₃ * (p ^ ((m + 3) / 2) * Y) - W.a₆) :
    ∃ Y : ℤ, p ^ (m + 4) ∣ (p ^ ((m + 3) / 2) * Y) ^ 2 + V.a₃ * (p ^ ((m + 3) / 2) * Y) - V.a₆ := by
  obtain ⟨r, s, t, h⟩ := sim_iff.1 h
  obtain ⟨hr, hs, ht⟩ := star_rst hp h (by omega) hW hV
  obtain ⟨Y, hY⟩ := hY
  rw [show (m + 4) / 2 = (m + 3) / 2 by omega] at ht
  obtain ⟨t₁, e2⟩ := ht
  have : Val p r ((m + 3) / 2) := ⟨hr⟩
  have := Val.of1 hW.a1
  have := Val.of1 hW.a2
  have : Val p W.a₄ ((m + 5) / 2) := ⟨hW.a4⟩
  refine ⟨Y - t₁, ?_⟩
  generalize hj : (m + 3) / 2 = j at *
  rw [show p ^ j * (Y - t₁) = p ^ j * Y - t by rw [e2]; ring]
  rw [show (p ^ j * Y - t) ^ 2 + V.a₃ * (p ^ j * Y - t) - V.a₆ =
      ((p ^ j * Y) ^ 2 + W.a₃ * (p ^ j * Y) - W.a₆) + (W.a₁ * r * (p ^ j * Y) - r ^ 3 - W.a₂ * r ^ 2 - W.a₄ * r) by
    rw [h.a3, h.a6]; ring]
  exact dvd_add hY (by pv)

theorem comp_star_even (hp : Prime p) (h : Sim W V) {m : ℕ} (hm : m % 2 = 0) (hm1 : 1 ≤ m) (hW : StarLev p W m)
    (hV : StarLev p V m)
    (hX : ∃ X : ℤ, p ^ (m + 4) ∣ W.a₂ * (p ^ ((m + 2) / 2) * X) ^ 2 + W.a₄ * (p ^ ((m + 2) / 2) * X) + W.a₆) :
    ∃ X : ℤ, p ^ (m + 4) ∣ V.a₂ * (p ^ ((m + 2) / 2) * X) ^ 2 + V.a₄ * (p ^ ((m + 2) / 2) * X) + V.a₆ := by
  obtain ⟨r, s, t, h⟩ := sim_iff.1 h
  obtain ⟨hr, hs, ht⟩ := star_rst hp h (by omega) hW hV
  obtain ⟨X, hX⟩ := hX
  rw [show (m + 3) / 2 = (m + 2) / 2 by omega] at hr
  have : Val p r ((m + 2) / 2) := ⟨hr⟩
  obtain ⟨r₁, e2⟩ := hr
  have : Val p t ((m + 4) / 2) := ⟨ht⟩
  have := Val.of1 hs
  have := Val.of1 hW.a1
  have : Val p W.a₃ ((m + 4) / 2) := ⟨hW.a3⟩
  refine ⟨X - r₁, ?_⟩
  generalize hj : (m + 2) / 2 = j at *
  rw [show p ^ j * (X - r₁) = p ^ j * X - r by rw [e2]; ring]
  rw [show V.a₂ * (p ^ j * X - r) ^ 2 + V.a₄ * (p ^ j * X - r) + V.a₆ =
      (W.a₂ * (p ^ j * X) ^ 2 + W.a₄ * (p ^ j * X) + W.a₆) + ((p ^ j * X) ^ 3 - (p ^ j * X - r) ^ 3
        - ((s * (p ^ j * X - r) + t) ^ 2 + W.a₁ * (p ^ j * X) * (s * (p ^ j * X - r) + t)
          + W.a₃ * (s * (p ^ j * X - r) + t))) by
    rw [h.a2, h.a4, h.a6]; ring]
  exact dvd_add hX (by pv)

theorem comp_IVstar (hp : Prime p) (h : Sim W V) (hW : Lev6 p W) (hV : Lev6 p V)
    (hY : ∃ Y : ℤ, p ^ 5 ∣ (p ^ 2 * Y) ^ 2 + W.a₃ * (p ^ 2 * Y) - W.a₆) :
    ∃ Y : ℤ, p ^ 5 ∣ (p ^ 2 * Y) ^ 2 + V.a₃ * (p ^ 2 * Y) - V.a₆ := by
  obtain ⟨r, s, t, h⟩ := sim_iff.1 h
  obtain ⟨hr, hs, ht⟩ := lev6_rst hp h hW hV
  obtain ⟨Y, hY⟩ := hY
  obtain ⟨t₁, e2⟩ := ht
  have : Val p r 2 := ⟨hr⟩
  have := Val.of1 hW.a1
  have : Val p W.a₂ 2 := ⟨hW.a2⟩
  have : Val p W.a₄ 3 := ⟨hW.a4⟩
  refine ⟨Y - t₁, ?_⟩
  rw [show p ^ 2 * (Y - t₁) = p ^ 2 * Y - t by rw [e2]; ring]
  rw [show (p ^ 2 * Y - t) ^ 2 + V.a₃ * (p ^ 2 * Y - t) - V.a₆ =
      ((p ^ 2 * Y) ^ 2 + W.a₃ * (p ^ 2 * Y) - W.a₆) + (W.a₁ * r * (p ^ 2 * Y) - r ^ 3 - W.a₂ * r ^ 2 - W.a₄ * r) by
    rw [h.a3, h.a6]; ring]
  exact dvd_add hY (by pv)

/-- two normal forms of the same equation have the same number of components -/
theorem NF.same_c {q : ℕ} (hq : q.Prime) {k : Kodaira} {c c' : ℕ} (h : Sim W V) (hW : NF q W k c)
    (hV : NF q V k c') : c = c' := by
  have hp : Prime (q : ℤ) := Nat.prime_iff_prime_int.1 hq
  have hpos : (0 : ℤ) < q := by exact_mod_cast hq.pos
  have iW := hW.chain.1
  have iV := hV.chain.1
  have jW := hW.chain.2
  have jV := hV.chain.2
  rcases k with (_ | n) | (_ | m) | _ | _ | _ | _ | _ | _
  · rw [hW.2, hV.2]
  · have i1 : Lev1 (q : ℤ) W := (iW _ rfl).1
    have i2 : Lev1 (q : ℤ) V := (iV _ rfl).1
    exact Split.unique ⟨comp_I hp h i1 i2, comp_I hp h.symm i2 i1⟩ hW.2.2.2.2.2.2 hV.2.2.2.2.2.2
  · have i1 : Lev5 (q : ℤ) W := (iW _ rfl).1
    have i2 : Lev5 (q : ℤ) V := (iV _ rfl).1
    rw [hW.2.2.2.2.2.2, hV.2.2.2.2.2.2, le_antisymm (cubRoots_le hq h i1 i2) (cubRoots_le hq h.symm i2 i1)]
  · have h1 := hW.2
    have h2 := hV.2
    by_cases hm : (m + 1) % 2 = 1
    · rw [if_pos hm] at h1 h2
      exact Split.unique ⟨comp_star_odd hp h hm hW.1 hV.1, comp_star_odd hp h.symm hm hV.1 hW.1⟩ h1.2 h2.2
    · rw [if_neg hm] at h1 h2
      exact Split.unique ⟨comp_star_even hp h (by omega) (by omega) hW.1 hV.1,
        comp_star_even hp h.symm (by omega) (by omega) hV.1 hW.1⟩ h1.2 h2.2
  · rw [hW.2.2.2.2.2, hV.2.2.2.2.2]
  · rw [hW.2.2.2.2.2, hV.2.2.2.2.2]
  · have i1 : Lev4 (q : ℤ) W := (iW _ rfl).1
    have i2 : Lev4 (q : ℤ) V := (iV _ rfl).1
    exact Split.unique ⟨comp_IV hp hpos h i1 i2, comp_IV hp hpos h.symm i2 i1⟩ hW.2.2.2.2.2.2 hV.2.2.2.2.2.2
  · have i1 : Lev6 (q : ℤ) W := (jW _ rfl).1
    have i2 : Lev6 (q : ℤ) V := (jV _ rfl).1
    exact Split.unique ⟨comp_IVstar hp h i1 i2, comp_IVstar hp h.symm i2 i1⟩ hW.2.2.2.2.2.2 hV.2.2.2.2.2.2
  · rw [hW.2.2.2.2.2.2, hV.2.2.2.2.2.2]
  · rw [hW.2.2.2.2.2.2, hV.2.2.2.2.2.2]

/-- **the type is well defined**: an equation has at most one Kodaira symbol and one number of
rational components, and none if it is not minimal -/
theorem HasType.unique {q : ℕ} (hq : q.Prime) {k k' : Kodaira} {c c' : ℕ} (h : HasType q W k c)
    (h' : HasType q W k' c') : k = k' ∧ c = c' := by
  obtain ⟨V, hV, h⟩ := h
  obtain ⟨U, hU, h'⟩ := h'
  have hs : Sim V U := hV.symm.trans hU
  obtain rfl := NF.same hq hs h h'
  exact ⟨rfl, NF.same_c hq hs h h'⟩

theorem HasType.minimal {q : ℕ} (hq : q.Prime) {k : Kodaira} {c : ℕ} (h : HasType q W k c) :
    ¬ NonMinimal q W := by
  rintro ⟨U, hU, h'⟩
  obtain ⟨V, hV, h⟩ := h
  exact NF.not_NM hq (hV.symm.trans hU) h h'

end Eclib.Tate
