import Mathlib.GroupTheory.OrderOfElement
import Mathlib.Tactic.Linarith
import Mathlib.Tactic.Ring
import Mathlib.Data.Nat.Find
import Verif.Pmod.BgModel

/-!
# C66: the baby-step-giant-step algorithm
-/

set_option linter.unusedSectionVars false

namespace Eclib.Pmod

variable {G : Type} [AddCommGroup G] [DecidableEq G] {κ : Type} [DecidableEq κ]

/-- the key separates points up to sign: what an x-coordinate does -/
def KeyOk (key : G → κ) : Prop := ∀ a b : G, a ≠ 0 → b ≠ 0 → (key a = key b ↔ a = b ∨ a = -b)

/-- `r` is the least `h` with `lower ≤ h ≤ upper` and `h P = Q`, or `-1` when there is none -/
def LeastLog (P Q : G) (lower upper r : ℤ) : Prop :=
  (lower ≤ r ∧ r ≤ upper ∧ r • P = Q ∧ ∀ h, lower ≤ h → h • P = Q → r ≤ h) ∨
  (r = -1 ∧ ∀ h, lower ≤ h → h ≤ upper → h • P ≠ Q)

theorem bgSmall_spec (P Q : G) (lower upper : ℤ) (H : G) (h : ℤ) (hH : H = h • P)
    (hl : lower ≤ h) (hu : h ≤ upper) (hno : ∀ k, lower ≤ k → k ≤ h → k • P ≠ Q) :
    LeastLog P Q lower (upper + 1) (bgSmall P Q upper H h) := by
  induction H, h using bgSmall.induct P Q upper with
  | case1 H h h' heq =>
    rw [bgSmall, if_pos heq]
    left
    have e : (h + 1) • P = Q := by rw [add_smul, one_smul, ← hH]; exact heq
    refine ⟨by omega, by omega, e, fun k hk1 hk2 => ?_⟩
    by_contra hlt
    exact hno k hk1 (by omega) hk2
  | case2 H h H' h' hne hle ih =>
    rw [bgSmall, if_neg hne, if_pos hle]
    have e : H' = h' • P := by
      change H + P = (h + 1) • P
      rw [add_smul, one_smul, ← hH]
    refine ih e (by omega) hle (fun k hk1 hk2 hk3 => ?_)
    by_cases hk : k = h'
    · exact hne (by rw [e, ← hk]; exact hk3)
    · exact hno k hk1 (by omega) hk3
  | case3 H h H' h' hne hle =>
    rw [bgSmall, if_neg hne, if_neg hle]
    right
    refine ⟨rfl, fun k hk1 hk2 hk3 => ?_⟩
    by_cases hk : k = h'
    · apply hne
      change H + P = Q
      rw [← hk3, hk, hH]
      change _ = (h + 1) • P
      rw [add_smul, one_smul]
    · exact hno k hk1 (by omega) hk3

/-- what the baby steps have built: every stored pair is right and every `i P ≠ 0` is there, the
entry found for its key belonging to some index `i'` with `i' P = ± i P` -/
structure TabOk (key : G → κ) (P : G) (nb : ℤ) (HT : Tab κ) : Prop where
  sound : ∀ k i, HT.lookup k = some i → 1 ≤ i ∧ i ≤ nb ∧ i • P ≠ 0 ∧ key (i • P) = k
  complete : ∀ i, 1 ≤ i → i ≤ nb → i • P ≠ 0 → ∃ i', HT.lookup (key (i • P)) = some i'

theorem TabOk.nil (key : G → κ) (P : G) : TabOk key P 0 [] :=
  ⟨fun k i h => by simp at h, fun i h1 h2 => by omega⟩

theorem TabOk.step {key : G → κ} {P : G} {nb : ℤ} {HT : Tab κ} (h : TabOk key P nb HT)
    (hnb : 0 ≤ nb) :
    TabOk key P (nb + 1) (if (nb + 1) • P ≠ 0 then (key ((nb + 1) • P), nb + 1) :: HT else HT) := by
  by_cases h0 : (nb + 1) • P ≠ 0
  · rw [if_pos h0]
    constructor
    · intro k i hk
      rw [List.lookup_cons] at hk
      by_cases hkk : k = key ((nb + 1) • P)
      · rw [hkk] at hk
        simp only [beq_self_eq_true] at hk
        have := Option.some.inj hk
        subst this
        exact ⟨by omega, le_refl _, h0, hkk.symm⟩
      · have : (k == key ((nb + 1) • P)) = false := by simpa using hkk
        rw [this] at hk
        obtain ⟨a, b, c, d⟩ := h.sound k i hk
        exact ⟨a, by omega, c, d⟩
    · intro i hi1 hi2 hi3
      rw [List.lookup_cons]
      by_cases hkk : key (i • P) = key ((nb + 1) • P)
      · rw [hkk]
        simp
      · have : (key (i • P) == key ((nb + 1) • P)) = false := by simpa using hkk
        rw [this]
        refine h.complete i hi1 ?_ hi3
        by_contra hlt
        have : i = nb + 1 := by omega
        rw [this] at hkk
        exact hkk rfl
  · rw [if_neg h0]
    push Not at h0
    constructor
    · intro k i hk
      obtain ⟨a, b, c, d⟩ := h.sound k i hk
      exact ⟨a, by omega, c, d⟩
    · intro i hi1 hi2 hi3
      refine h.complete i hi1 ?_ hi3
      by_contra hlt
      have : i = nb + 1 := by omega
      rw [this] at hi3
      exact hi3 h0

/-- result of the baby steps -/
def BabyOk (key : G → κ) (P H2 : G) (nb : ℤ) : ℤ ⊕ G × Tab κ → Prop
  | .inl i => 1 ≤ i ∧ i ≤ nb ∧ i • P = H2 ∧ ∀ k, 1 ≤ k → k < i → k • P ≠ H2
  | .inr (H, HT) => H = nb • P ∧ TabOk key P nb HT ∧ ∀ k, 1 ≤ k → k ≤ nb → k • P ≠ H2

theorem babySteps_spec (key : G → κ) (P H2 : G) (nb : ℤ) (i : ℤ) (H : G) (HT : Tab κ)
    (hi : 1 ≤ i) (hinb : i ≤ nb + 1) (hH : H = (i - 1) • P) (hT : TabOk key P (i - 1) HT)
    (hno : ∀ k, 1 ≤ k → k < i → k • P ≠ H2) :
    BabyOk key P H2 nb (babySteps key P H2 nb i H HT) := by
  induction i, H, HT using babySteps.induct key P H2 nb with
  | case1 i H HT hle H' heq =>
    rw [babySteps, if_pos hle]
    simp only []
    rw [if_pos heq]
    refine ⟨hi, hle, ?_, hno⟩
    rw [← heq]
    change i • P = H + P
    rw [hH, ← add_one_zsmul]
    congr 1
    omega
  | case2 i H HT hle H' hne ih =>
    rw [babySteps, if_pos hle]
    simp only []
    rw [if_neg hne]
    have e : H' = i • P := by
      change H + P = _
      rw [hH, ← add_one_zsmul]
      congr 1
      omega
    refine ih (by omega) (by omega) (by rw [e]; congr 1; omega) ?_ ?_
    · have := hT.step (by omega)
      have e2 : i - 1 + 1 = i := by omega
      rw [e2, ← e] at this
      have e3 : i + 1 - 1 = i := by omega
      rw [e3]
      exact this
    · intro k hk1 hk2 hk3
      by_cases hk : k = i
      · exact hne (by rw [e, ← hk]; exact hk3)
      · exact hno k hk1 (by omega) hk3
  | case3 i H HT hle =>
    rw [babySteps, if_neg hle]
    have : i = nb + 1 := by omega
    subst this
    have e3 : nb + 1 - 1 = nb := by omega
    rw [e3] at hH hT
    exact ⟨hH, hT, fun k h1 h2 => hno k h1 (by omega)⟩

/-- a solution may be reduced modulo any period of `P` -/
theorem reduce_sol {P Q : G} {lower k d : ℤ} (hd : 0 < d) (hdP : d • P = 0) (hk : k • P = Q) :
    ∃ k', lower ≤ k' ∧ k' < lower + d ∧ k' • P = Q := by
  refine ⟨lower + (k - lower) % d, ?_, ?_, ?_⟩
  · have := Int.emod_nonneg (k - lower) (by omega : d ≠ 0); omega
  · have := Int.emod_lt_of_pos (k - lower) hd; omega
  · have e : lower + (k - lower) % d = k - (k - lower) / d * d := by
      have := Int.emod_add_mul_ediv (k - lower) d
      have h2 : d * ((k - lower) / d) = (k - lower) / d * d := mul_comm _ _
      omega
    rw [e, sub_smul, mul_smul, hdP, smul_zero, sub_zero, hk]

/-- no solution between `lower` and the last one tested -/
def NoneYet (P Q : G) (lower nb j : ℤ) : Prop :=
  1 ≤ j → ∀ h, lower ≤ h → h ≤ lower + j * nb → h • P ≠ Q

/-- a step of the giant steps which finds nothing -/
theorem giant_step {key : G → κ} (hkey : KeyOk key) {P Q : G} {HT : Tab κ}
    {lower nb : ℤ} (hnb : 0 < nb) (hT : TabOk key P nb HT)
    (hbaby : ∀ k, 1 ≤ k → k ≤ nb → k • P ≠ Q - lower • P)
    {j : ℤ} {H2 : G} (hj : 0 ≤ j) (hH2 : H2 = Q - (lower + j * nb) • P)
    (hno : NoneYet P Q lower nb j) (hne : H2 ≠ 0)
    (hlook : ∀ i, HT.lookup (key H2) = some i → i • P ≠ H2) : NoneYet P Q lower nb (j + 1) := by
  intro _ h h1 h2 h3
  by_cases hj0 : 1 ≤ j
  · have hA := hno hj0
    by_cases hle : h ≤ lower + j * nb
    · exact hA h h1 hle h3
    · have hjn : nb ≤ j * nb := by nlinarith
      obtain ⟨i, hi⟩ : ∃ i, i = h - (lower + j * nb) := ⟨_, rfl⟩
      have hi1 : 1 ≤ i := by omega
      have hi2 : i ≤ nb := by rw [add_mul, one_mul] at h2; omega
      have hiP : i • P = H2 := by rw [hi, sub_smul, h3, hH2]
      obtain ⟨i', hi'⟩ := hT.complete i hi1 hi2 (by rw [hiP]; exact hne)
      obtain ⟨b1, b2, b3, b4⟩ := hT.sound _ _ hi'
      rw [hiP] at hi' b4
      rcases (hkey _ _ b3 hne).1 b4 with h5 | h5
      · exact hlook i' hi' h5
      · have hz : (i + i') • P = 0 := by rw [add_smul, h5, hiP, add_neg_cancel]
        refine hA (h - (i + i')) (by omega) (by omega) ?_
        rw [sub_smul, hz, sub_zero, h3]
  · have : j = 0 := by omega
    subst this
    simp only [zero_mul, add_zero, zero_add, one_mul] at *
    by_cases hl : h = lower
    · rw [hl] at h3
      rw [h3, sub_self] at hH2
      exact hne hH2
    · refine hbaby (h - lower) (by omega) (by omega) ?_
      rw [sub_smul, h3]

/-- a hit in the table is the least solution -/
theorem giant_hit {key : G → κ} {P Q : G} {HT : Tab κ}
    {lower nb : ℤ} (hnb : 0 < nb) (hT : TabOk key P nb HT)
    (hbaby : ∀ k, 1 ≤ k → k ≤ nb → k • P ≠ Q - lower • P)
    {j : ℤ} {H2 : G} (hj : 0 ≤ j) (hH2 : H2 = Q - (lower + j * nb) • P)
    (hno : NoneYet P Q lower nb j) {i : ℤ} (hlook : HT.lookup (key H2) = some i)
    (heq : i • P = H2) :
    lower ≤ lower + i + j * nb ∧ (lower + i + j * nb) • P = Q ∧
      ∀ h, lower ≤ h → h • P = Q → lower + i + j * nb ≤ h := by
  obtain ⟨b1, b2, b3, b4⟩ := hT.sound _ _ hlook
  have hj1 : 1 ≤ j := by
    by_contra hc
    have : j = 0 := by omega
    subst this
    simp only [zero_mul, add_zero] at hH2
    exact hbaby i b1 b2 (by rw [heq, hH2])
  have hjn : nb ≤ j * nb := by nlinarith
  refine ⟨by omega, ?_, fun k h1 h2 => ?_⟩
  · have e : lower + i + j * nb = i + (lower + j * nb) := by ring
    rw [e, add_smul, heq, hH2, sub_add_cancel]
  · by_contra hlt
    have hA := hno hj1
    have hk : lower + j * nb < k := by
      by_contra hc
      exact hA k h1 (by omega) h2
    have hz : (lower + i + j * nb - k) • P = 0 := by
      have e : lower + i + j * nb = i + (lower + j * nb) := by ring
      rw [sub_smul, h2, e, add_smul, heq, hH2, sub_add_cancel, sub_self]
    obtain ⟨k', c1, c2, c3⟩ := reduce_sol (lower := lower) (by omega) hz h2
    exact hA k' c1 (by omega) c3

theorem giantSteps_spec {key : G → κ} (hkey : KeyOk key) (P Q : G) (HT : Tab κ)
    (lower upper nb : ℤ) (hnb : 0 < nb) (hlu : lower ≤ upper) (hT : TabOk key P nb HT)
    (hbaby : ∀ k, 1 ≤ k → k ≤ nb → k • P ≠ Q - lower • P)
    (j : ℤ) (H2 : G) (hj : 0 ≤ j) (hH2 : H2 = Q - (lower + j * nb) • P)
    (hno : NoneYet P Q lower nb j) :
    LeastLog P Q lower upper
      (giantSteps key P (nb • P) HT lower upper nb (1 + (upper - lower) / nb) j H2) := by
  have hng0 : 0 ≤ (upper - lower) / nb := Int.ediv_nonneg (by omega) hnb.le
  have hng : upper < lower + (1 + (upper - lower) / nb) * nb := by
    have := Int.lt_ediv_add_one_mul_self (upper - lower) hnb
    rw [add_comm 1]
    omega
  have hnext : ∀ (j : ℤ) (H2 : G), H2 = Q - (lower + j * nb) • P →
      H2 - nb • P = Q - (lower + (j + 1) * nb) • P := by
    intro j H2 h
    rw [h, sub_sub, ← add_smul]
    congr 2
    ring
  induction j, H2 using giantSteps.induct key P (nb • P) HT lower upper nb
    (1 + (upper - lower) / nb) with
  | case1 j hle h' hle' =>
    rw [giantSteps, if_pos hle, if_pos rfl]
    simp only []
    rw [if_pos hle']
    left
    have e : (lower + j * nb) • P = Q := (sub_eq_zero.1 hH2.symm).symm
    refine ⟨by nlinarith, hle', e, fun k hk1 hk2 => ?_⟩
    by_contra hlt
    by_cases hj0 : 1 ≤ j
    · exact hno hj0 k hk1 (by omega) hk2
    · have : j = 0 := by omega
      subst this
      omega
  | case2 j hle h' hle' =>
    rw [giantSteps, if_pos hle, if_pos rfl]
    simp only []
    rw [if_neg hle']
    right
    refine ⟨rfl, fun k hk1 hk2 hk3 => ?_⟩
    by_cases hj0 : 1 ≤ j
    · exact hno hj0 k hk1 (by omega) hk3
    · have : j = 0 := by omega
      subst this
      omega
  | case3 j hle i h' hle' hne hlook =>
    rw [giantSteps, if_pos hle, if_neg hne, hlook]
    simp only []
    rw [if_pos trivial, if_pos hle']
    obtain ⟨c1, c2, c3⟩ := giant_hit hnb hT hbaby hj hH2 hno hlook rfl
    exact Or.inl ⟨c1, hle', c2, c3⟩
  | case4 j hle i h' hle' hne hlook =>
    rw [giantSteps, if_pos hle, if_neg hne, hlook]
    simp only []
    rw [if_pos trivial, if_neg hle']
    obtain ⟨c1, c2, c3⟩ := giant_hit hnb hT hbaby hj hH2 hno hlook rfl
    refine Or.inr ⟨rfl, fun k hk1 hk2 hk3 => ?_⟩
    have := c3 k hk1 hk3
    omega
  | case5 j H2 hle hne i hlook hneq ih =>
    rw [giantSteps, if_pos hle, if_neg hne, hlook]
    simp only []
    rw [if_neg hneq]
    refine ih (by omega) (hnext _ _ hH2)
      (giant_step hkey hnb hT hbaby hj hH2 hno hne (fun i' hi => ?_))
    rw [hlook] at hi
    cases hi
    exact hneq
  | case6 j H2 hle hne hlook ih =>
    rw [giantSteps, if_pos hle, if_neg hne, hlook]
    refine ih (by omega) (hnext _ _ hH2)
      (giant_step hkey hnb hT hbaby hj hH2 hno hne (fun i hi => ?_))
    rw [hlook] at hi
    cases hi
  | case7 j H2 hle =>
    rw [giantSteps, if_neg hle]
    right
    refine ⟨rfl, fun k hk1 hk2 hk3 => hno (by omega) k hk1 ?_ hk3⟩
    have : (1 + (upper - lower) / nb) * nb ≤ j * nb := by nlinarith
    omega

theorem steps_range {lower upper nb : ℤ} (h3 : ¬ upper - lower < 30)
    (hnb : nb = (if 1 + Int.sqrt (upper - lower) > maxBgSteps then maxBgSteps
      else 1 + Int.sqrt (upper - lower))) : 0 < nb ∧ nb ≤ upper - lower := by
  have hs := Int.sqrt_nonneg (upper - lower)
  have hnb0 : 0 < nb := by
    rw [hnb]
    unfold maxBgSteps
    split_ifs <;> omega
  have hnbu : nb ≤ upper - lower := by
    have h4 : Int.sqrt (upper - lower) * Int.sqrt (upper - lower) ≤ upper - lower := by
      rw [Int.sqrt]
      have := Nat.sqrt_le (upper - lower).toNat
      have h5 : (((upper - lower).toNat : ℕ) : ℤ) = upper - lower := Int.toNat_of_nonneg (by omega)
      calc _ = ((Nat.sqrt (upper - lower).toNat * Nat.sqrt (upper - lower).toNat : ℕ) : ℤ) := by
            push_cast; rfl
        _ ≤ (((upper - lower).toNat : ℕ) : ℤ) := by exact_mod_cast this
        _ = _ := h5
    have : nb ≤ 1 + Int.sqrt (upper - lower) := by
      rw [hnb]
      split_ifs <;> omega
    nlinarith
  exact ⟨hnb0, hnbu⟩

/-- **C66.** Baby-step-giant-step: for `0 ≤ lower` the result is the least `h` in the interval with
`h P = Q`, and -1 exactly when there is none, with two provisos.  The interval is `[lower, upper]`
only when it has length at least 30; otherwise `upper + 1` is tried as well.  And when `Q = lower P`
with `lower > 0` some solution in the interval, perhaps not the least, is returned. -/
theorem C66_bg {key : G → κ} (hkey : KeyOk key) (P Q : G) (lower upper : ℤ) (hl : 0 ≤ lower)
    (hlu : lower ≤ upper) (hQ : lower = 0 ∨ lower • P ≠ Q) :
    LeastLog P Q lower (if upper - lower < 30 then upper + 1 else upper)
      (bg key P Q lower upper) := by
  unfold bg
  by_cases h1 : P = 0 ∧ Q ≠ 0
  · rw [if_pos h1]
    exact Or.inr ⟨rfl, fun h _ _ hh => h1.2 (by rw [← hh, h1.1, smul_zero])⟩
  rw [if_neg h1]
  by_cases h2 : lower = 0 ∧ Q = 0
  · rw [if_pos h2]
    refine Or.inl ⟨by omega, by split_ifs <;> omega, by rw [h2.2, zero_smul], fun h hh _ => by omega⟩
  rw [if_neg h2, if_neg (show ¬ (lower < 0 ∨ upper < lower) by omega)]
  have hne : lower • P ≠ Q := by
    rcases hQ with h | h
    · intro hh
      rw [h, zero_smul] at hh
      exact h2 ⟨h, hh.symm⟩
    · exact h
  by_cases h3 : upper - lower < 30
  · rw [if_pos h3, if_pos h3]
    simp only []
    rw [if_neg hne]
    refine bgSmall_spec P Q lower upper _ _ rfl (le_refl _) hlu (fun k hk1 hk2 => ?_)
    have : k = lower := by omega
    rw [this]
    exact hne
  · rw [if_neg h3, if_neg h3]
    simp only []
    obtain ⟨nb, hnb⟩ : ∃ nb, nb = (if 1 + Int.sqrt (upper - lower) > maxBgSteps then maxBgSteps
      else 1 + Int.sqrt (upper - lower)) := ⟨_, rfl⟩
    obtain ⟨hnb0, hnbu⟩ := steps_range h3 hnb
    rw [← hnb]
    have hb := babySteps_spec key P (Q - lower • P) nb 1 0 [] (le_refl _) (by omega)
      (by simp) (TabOk.nil key P) (fun k h1 h2 => by omega)
    cases hbs : babySteps key P (Q - lower • P) nb 1 0 [] with
    | inl i =>
      rw [hbs] at hb
      obtain ⟨c1, c2, c3, c4⟩ := hb
      refine Or.inl ⟨by simp only []; omega, by simp only []; omega, ?_, fun h d1 d2 => ?_⟩
      · simp only []
        rw [add_smul, c3, add_sub_cancel]
      · by_contra hlt
        simp only [] at hlt
        by_cases hh : h = lower
        · exact hne (by rw [← hh]; exact d2)
        · refine c4 (h - lower) (by omega) (by omega) ?_
          rw [sub_smul, d2]
    | inr x =>
      obtain ⟨H, HT⟩ := x
      rw [hbs] at hb
      obtain ⟨c1, c2, c3⟩ := hb
      simp only []
      rw [c1]
      refine giantSteps_spec hkey P Q HT lower upper nb hnb0 hlu c2 c3 0 _ (le_refl _) (by simp) ?_
      intro hc
      omega

theorem bg_start {key : G → κ} (hkey : KeyOk key) (P Q : G) (lower upper : ℤ) (hl : 0 < lower)
    (hlu : lower ≤ upper) (hQ : lower • P = Q) :
    lower ≤ bg key P Q lower upper ∧ bg key P Q lower upper ≤ upper ∧
      bg key P Q lower upper • P = Q := by
  unfold bg
  have h1 : ¬ (P = 0 ∧ Q ≠ 0) := by
    rintro ⟨a, b⟩
    rw [a, smul_zero] at hQ
    exact b hQ.symm
  rw [if_neg h1, if_neg (show ¬ (lower = 0 ∧ Q = 0) by omega),
    if_neg (show ¬ (lower < 0 ∨ upper < lower) by omega)]
  by_cases h3 : upper - lower < 30
  · rw [if_pos h3]
    simp only []
    rw [if_pos hQ]
    exact ⟨le_refl _, hlu, hQ⟩
  · rw [if_neg h3]
    simp only []
    obtain ⟨nb, hnb⟩ : ∃ nb, nb = (if 1 + Int.sqrt (upper - lower) > maxBgSteps then maxBgSteps
      else 1 + Int.sqrt (upper - lower)) := ⟨_, rfl⟩
    obtain ⟨hnb0, hnbu⟩ := steps_range h3 hnb
    rw [← hnb]
    have hb := babySteps_spec key P (Q - lower • P) nb 1 0 [] (le_refl _) (by omega)
      (by simp) (TabOk.nil key P) (fun k h1 h2 => by omega)
    cases hbs : babySteps key P (Q - lower • P) nb 1 0 [] with
    | inl i =>
      rw [hbs] at hb
      obtain ⟨c1, c2, c3, c4⟩ := hb
      simp only []
      refine ⟨by omega, by omega, ?_⟩
      rw [add_smul, c3, add_sub_cancel]
    | inr x =>
      obtain ⟨H, HT⟩ := x
      rw [hbs] at hb
      obtain ⟨c1, c2, c3⟩ := hb
      simp only []
      rw [c1]
      rcases giantSteps_spec hkey P Q HT lower upper nb hnb0 hlu c2 c3 0 (Q - lower • P) (le_refl _)
        (by simp) (fun hc => by omega) with ⟨a, b, c, d⟩ | ⟨a, b⟩
      · exact ⟨a, b, c⟩
      · exact absurd hQ (b lower (le_refl _) hlu)

/-- **C66 (found, not found).** If some `h` in `[lower, upper]` solves `h P = Q` then so does the
result, which lies in that interval; if the result is -1 there is none. -/
theorem C66_found {key : G → κ} (hkey : KeyOk key) (P Q : G) (lower upper : ℤ) (hl : 0 ≤ lower)
    (hlu : lower ≤ upper) :
    ((∃ h, lower ≤ h ∧ h ≤ upper ∧ h • P = Q) → lower ≤ bg key P Q lower upper ∧
      bg key P Q lower upper ≤ upper ∧ bg key P Q lower upper • P = Q) ∧
    (bg key P Q lower upper = -1 ↔ ∀ h, lower ≤ h →
      h ≤ (if upper - lower < 30 then upper + 1 else upper) → h • P ≠ Q) := by
  by_cases hQ : lower = 0 ∨ lower • P ≠ Q
  · have := C66_bg hkey P Q lower upper hl hlu hQ
    constructor
    · rintro ⟨h, a, b, c⟩
      rcases this with ⟨d1, d2, d3, d4⟩ | ⟨d1, d2⟩
      · exact ⟨d1, (d4 h a c).trans b, d3⟩
      · exact absurd c (d2 h a (by split_ifs <;> omega))
    · rcases this with ⟨d1, d2, d3, d4⟩ | ⟨d1, d2⟩
      · exact ⟨fun h => by omega, fun h => absurd d3 (h _ d1 d2)⟩
      · exact ⟨fun _ => d2, fun _ => d1⟩
  · push Not at hQ
    have := bg_start hkey P Q lower upper (by omega) hlu hQ.2
    exact ⟨fun _ => this, fun h => by omega, fun h => absurd hQ.2
      (h lower (le_refl _) (by split_ifs <;> omega))⟩

/-- **C66 (least logarithm).** With `lower = 0`, the case of a discrete logarithm, and an interval
of length at least 30, the result is the least solution in the interval. -/
theorem C66_dlog_partial {key : G → κ} (hkey : KeyOk key) (P Q : G) (upper : ℤ) (hu : 30 ≤ upper) :
    LeastLog P Q 0 upper (bg key P Q 0 upper) := by
  have := C66_bg hkey P Q 0 upper (le_refl _) (by omega) (Or.inl rfl)
  rwa [if_neg (by omega)] at this

end Eclib.Pmod
