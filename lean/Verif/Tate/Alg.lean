import Verif.Tate.Steps3

/-!
# C63: Tate's algorithm
-/

namespace Eclib.Tate

open WeierstrassCurve
open Eclib.Marith (XGcd SqrRootMod val div mod invmod legendre sqrtModP)
open Eclib.Curve (Cd fdiv_eq div_iff')

theorem Found.sim {p : ℕ} {W V : WeierstrassCurve ℤ} {od oj : ℤ} {res : Cd × Option Red} (h : Sim W V)
    (hq : Found p V od oj res) : Found p W od oj res := by
  obtain ⟨U, h1, h2⟩ := hq
  exact ⟨U, h.trans h1, h2⟩

theorem Found.mk {p : ℕ} {V : WeierstrassCurve ℤ} {od oj : ℤ} {C : Cd} (hC : Is C V) {k : Kodaira} {c : ℕ}
    (h : NF p V k c) {n cd cp : ℤ} (hn : n = od - k.components + 1) (hcd : cd = k.code) (hcp : cp = c) :
    Found p V od oj (C, some ⟨od, n, oj, cd, cp⟩) :=
  ⟨V, Sim.refl V, hC, Or.inl ⟨_, k, c, rfl, h, rfl, hn, rfl, hcd, hcp⟩⟩

/-! ### the triple root -/

theorem triple_move (L : Lib) {p : ℕ} (hp : p.Prime) {b c d : ℤ} {W V : WeierstrassCurve ℤ} {r ρ : ℤ}
    (h5 : Lev5 p W)
    (hb : W.a₂ = p * b) (hc : W.a₄ = p ^ 2 * c) (hd : W.a₆ = p ^ 3 * d) (hr : r = p * mod ρ p)
    (hw : (p : ℤ) ∣ cw b c d) (hx : (p : ℤ) ∣ 3 * c - b * b)
    (hρ : ρ = if (p : ℤ) % 2 = 0 then b else if (p : ℤ) = 3 then root L (-d) 3 p
        else -b * invmod L.xg 3 p)
    (hV : Chg W V r 0 0) : Lev6 p V := by
  have hF := Fact.mk hp
  obtain ⟨q1, q3, q2, q4, q6⟩ := cubic_move h5 hb hc hd hr hV
  have cρ := smod_cast hp.ne_zero ρ
  rw [dvd_iff_cast] at hw hx
  have hw' : cw (b : ZMod p) c d = 0 := by
    have : ((cw b c d : ℤ) : ZMod p) = cw (b : ZMod p) c d := by unfold cw; push_cast; ring
    rw [← this]; exact hw
  push_cast at hx
  have key : (b : ZMod p) + 3 * ρ = 0 ∧ (c : ZMod p) + 2 * ρ * b + 3 * ρ ^ 2 = 0 ∧
      (ρ : ZMod p) ^ 3 + b * ρ ^ 2 + c * ρ + d = 0 := by
    by_cases h2 : p = 2
    · subst h2
      rw [if_pos (by rfl)] at hρ
      rw [hρ]
      exact cubic_triple_two _ _ _ hw' hx
    · rw [if_neg (fun h => h2 ((prime_even hp).1 h))] at hρ
      by_cases h3 : p = 3
      · subst h3
        rw [if_pos (by rfl)] at hρ
        have e : (ρ : ZMod 3) = -d := by
          rw [hρ]; refine (root3_cast L _).trans ?_; push_cast; rfl
        rw [e]
        exact cubic_triple_three _ _ _ hw' hx
      · rw [if_neg (by exact_mod_cast h3)] at hρ
        have n3 := three_ne hp h3
        refine cubic_triple n3 hw' hx ?_
        have hi := invmod_cast L.xg (a := 3) (p := p) (by push_cast; exact n3)
        rw [hρ]
        push_cast at hi ⊢
        rw [hi]
        field_simp
  refine ⟨q1, ?_, q3, ?_, ?_⟩
  · rw [q2, pow_two]
    refine mul_dvd_mul_left _ ((dvd_iff_cast p _).2 ?_)
    push_cast; rw [cρ]; exact key.1
  · rw [q4, pow_succ _ 2]
    refine mul_dvd_mul_left _ ((dvd_iff_cast p _).2 ?_)
    push_cast; rw [cρ]; exact key.2.1
  · rw [q6, pow_succ _ 3]
    refine mul_dvd_mul_left _ ((dvd_iff_cast p _).2 ?_)
    push_cast; rw [cρ]; exact key.2.2

theorem fdiv_fdiv {p x y : ℤ} (hp : p ≠ 0) (h : x = p ^ 2 * y) : (x.fdiv p).fdiv p = y := by
  rw [fdiv_eq hp (show x = p * (p * y) by rw [h]; ring)]
  exact fdiv_eq hp rfl

theorem triple_spec (L : Lib) {p : ℕ} (hp : p.Prime) {b c d od oj : ℤ} {C : Cd} {W : WeierstrassCurve ℤ}
    (hC : Is C W) (h5 : Lev5 p W)
    (hb : W.a₂ = p * b) (hc : W.a₄ = p ^ 2 * c) (hd : W.a₆ = p ^ 3 * d)
    (hw : (p : ℤ) ∣ cw b c d) (hx : (p : ℤ) ∣ 3 * c - b * b) :
    ∃ res, triple L p b d od oj C = some res ∧ Found p W od oj res := by
  have hp' : Prime (p : ℤ) := Nat.prime_iff_prime_int.1 hp
  have hp0 : (p : ℤ) ≠ 0 := hp'.ne_zero
  unfold triple
  simp only
  generalize hρ : (if (p : ℤ) % 2 = 0 then b else if (p : ℤ) = 3 then root L (-d) 3 p
        else -b * invmod L.xg 3 p) = ρ
  obtain ⟨V, hV, hCV⟩ := hC.transform ((p : ℤ) * mod ρ p) 0 0
  have h6 : Lev6 p V := triple_move L hp h5 hb hc hd rfl hw hx hρ.symm hV
  have hsim : Sim W V := sim_iff.2 ⟨_, _, _, hV⟩
  generalize C.transform ((p : ℤ) * mod ρ p) 0 0 = C1 at hCV ⊢
  obtain ⟨a3t, e3⟩ := h6.a3
  obtain ⟨a6t, e6⟩ := h6.a6
  have f3 : (C1.a3.fdiv p).fdiv p = a3t := by rw [hCV.a3]; exact fdiv_fdiv hp0 e3
  have f6 : (((C1.a6.fdiv p).fdiv p).fdiv p).fdiv p = a6t := by
    rw [hCV.a6, fdiv_fdiv hp0 (show V.a₆ = (p : ℤ) ^ 2 * (p ^ 2 * a6t) by rw [e6]; ring)]
    exact fdiv_fdiv hp0 rfl
  rw [f3, f6]
  have d1 : (p : ℤ) ^ 5 ∣ V.a₃ ^ 2 + 4 * V.a₆ ↔ (p : ℤ) ∣ a3t * a3t + 4 * a6t := by
    rw [e3, e6, show ((p : ℤ) ^ 2 * a3t) ^ 2 + 4 * (p ^ 4 * a6t) = p ^ 4 * (a3t * a3t + 4 * a6t) by ring]
    exact pow_mul_dvd hp0 _
  by_cases hdiv : div (p : ℤ) (a3t * a3t + 4 * a6t) = true
  · rw [hdiv]
    rw [div_iff' hp0] at hdiv
    rw [if_neg (by simp)]
    have ht : ∃ τ, (if (p : ℤ) % 2 = 0 then -(p : ℤ) * p * root L a6t 2 p
        else (p : ℤ) * p * mod (-a3t * halfmodp p) p) = (p : ℤ) ^ 2 * τ ∧
        (p : ℤ) ∣ a3t + 2 * τ ∧ (p : ℤ) ∣ a6t - τ * a3t - τ ^ 2 := by
      have hc := tau_code L hp a3t a6t
      by_cases h2 : p = 2
      · refine ⟨-root L a6t 2 p, by rw [if_pos ((prime_even hp).2 h2)]; ring,
          tau_spec hp hdiv ⟨fun _ => ?_, fun h => (h h2).elim⟩⟩
        have := hc.1 h2
        subst h2
        rw [show -root L a6t 2 ((2 : ℕ) : ℤ) - a6t = (root L a6t 2 ((2 : ℕ) : ℤ) - a6t)
          - ((2 : ℕ) : ℤ) * root L a6t 2 ((2 : ℕ) : ℤ) by push_cast; ring]
        exact dvd_sub this (dvd_mul_right _ _)
      · exact ⟨mod (-a3t * halfmodp p) p, by rw [if_neg (fun h => h2 ((prime_even hp).1 h))]; ring,
          tau_spec hp hdiv ⟨fun h => (h2 h).elim, hc.2⟩⟩
    obtain ⟨τ, et, t1, t2⟩ := ht
    rw [et]
    obtain ⟨U, hU, hCU⟩ := hCV.transform 0 0 ((p : ℤ) ^ 2 * τ)
    generalize C1.transform 0 0 ((p : ℤ) ^ 2 * τ) = C2 at hCU ⊢
    have v1 := Val.of1 h6.a1
    have v4 : Val (p : ℤ) V.a₄ 3 := ⟨h6.a4⟩
    have h7 : Lev7 p U := by
      refine ⟨by rw [show U.a₁ = V.a₁ by rw [hU.a1]; ring]; pv, ?_, ?_, ?_, ?_⟩
      · rw [show U.a₂ = V.a₂ by rw [hU.a2]; ring]; exact h6.a2
      · rw [show U.a₃ = p ^ 2 * (a3t + 2 * τ) by rw [hU.a3, e3]; ring, pow_succ _ 2]
        exact mul_dvd_mul_left _ t1
      · rw [show U.a₄ = V.a₄ - (p : ℤ) ^ 2 * τ * V.a₁ by rw [hU.a4]; ring]; pv
      · rw [show U.a₆ = p ^ 4 * (a6t - τ * a3t - τ ^ 2) by rw [hU.a6, e3, e6]; ring, pow_succ _ 4]
        exact mul_dvd_mul_left _ t2
    have hsim2 : Sim W U := hsim.trans (sim_iff.2 ⟨_, _, _, hU⟩)
    rw [hCU.a4, hCU.a6]
    split_ifs with h4 h6'
    · rw [val_lt hp _ (by norm_num)] at h4
      exact ⟨_, rfl, Found.sim hsim2 (Found.mk hCU (k := .IIIstar) (c := 2)
        ⟨h7.a1, h7.a2, h7.a3, h7.a4, h7.a6, h4, rfl⟩ (by simp [Kodaira.components]; ring) rfl rfl)⟩
    · rw [val_lt hp _ (by norm_num), not_not] at h4
      rw [val_lt hp _ (by norm_num)] at h6'
      exact ⟨_, rfl, Found.sim hsim2 (Found.mk hCU (k := .IIstar) (c := 1)
        ⟨h7.a1, h7.a2, h7.a3, h4, h7.a6, h6', rfl⟩ (by simp [Kodaira.components]; ring) rfl rfl)⟩
    · rw [val_lt hp _ (by norm_num), not_not] at h4 h6'
      exact ⟨_, rfl, U, hsim2, hCU, Or.inr ⟨rfl, h7.a1, h7.a2, h7.a3, h4, h6'⟩⟩
  · rw [if_pos (by simpa using hdiv)]
    rw [div_iff' hp0] at hdiv
    obtain ⟨e, he, hes⟩ := rootsexist1_spec hp a3t (-a6t)
    rw [he]
    refine ⟨_, rfl, Found.sim hsim (Found.mk hCV (k := .IVstar) (c := if e then 3 else 1)
        ⟨h6.a1, h6.a2, h6.a3, h6.a4, h6.a6, fun h => hdiv (d1.1 h), split_ite (hes.trans ?_) 3 1⟩
        (by simp [Kodaira.components]; ring) rfl (by cases e <;> rfl))⟩
    refine exists_congr fun Y => ?_
    rw [e3, e6, show ((p : ℤ) ^ 2 * Y) ^ 2 + p ^ 2 * a3t * (p ^ 2 * Y) - p ^ 4 * a6t =
        p ^ 4 * (Y ^ 2 + a3t * Y + -a6t) by ring]
    exact (pow_mul_dvd hp0 _).symm

/-! ### the cubic -/

theorem cubRoots_eq (L : Lib) {p : ℕ} (hp : p.Prime) {b c d : ℤ} {W : WeierstrassCurve ℤ}
    (hb : W.a₂ = p * b) (hc : W.a₄ = p ^ 2 * c) (hd : W.a₆ = p ^ 3 * d) :
    (L.roots b c d p).length = cubRoots p W := by
  obtain ⟨hn, hm⟩ := L.roots_spec b c d p hp
  have hp0 : (p : ℤ) ≠ 0 := by exact_mod_cast hp.ne_zero
  have hroot : ∀ T : ℤ, (p : ℤ) ^ 4 ∣ (p * T) ^ 3 + W.a₂ * (p * T) ^ 2 + W.a₄ * (p * T) + W.a₆ ↔
      (p : ℤ) ∣ T ^ 3 + b * T ^ 2 + c * T + d := by
    intro T
    rw [hb, hc, hd, show ((p : ℤ) * T) ^ 3 + p * b * (p * T) ^ 2 + p ^ 2 * c * (p * T) + p ^ 3 * d =
      p ^ 3 * (T ^ 3 + b * T ^ 2 + c * T + d) by ring]
    exact pow_mul_dvd hp0 _
  unfold cubRoots
  rw [← List.toFinset_card_of_nodup hn]
  symm
  refine Finset.card_bij (fun T _ => (T : ℤ)) ?_ ?_ ?_
  · intro T hT
    simp only [Finset.mem_filter, Finset.mem_range] at hT
    rw [List.mem_toFinset, hm]
    exact ⟨⟨by positivity, by exact_mod_cast hT.1⟩, (hroot T).1 hT.2⟩
  · intro T _ U _ h
    exact_mod_cast h
  · intro x hx
    rw [List.mem_toFinset, hm] at hx
    refine ⟨x.toNat, ?_, by simp [hx.1.1]⟩
    simp only [Finset.mem_filter, Finset.mem_range]
    have e : ((x.toNat : ℕ) : ℤ) = x := Int.toNat_of_nonneg hx.1.1
    refine ⟨by omega, ?_⟩
    rw [e]
    exact (hroot x).2 hx.2

theorem cubicCase_spec (L : Lib) {p : ℕ} (hp : p.Prime) {fuel : ℕ} {od oj : ℤ} {C : Cd} {W : WeierstrassCurve ℤ}
    (hC : Is C W) (h5 : Lev5 p W) (hD : W.Δ ≠ 0) (hf : ¬ (p : ℤ) ^ (fuel + 7) ∣ W.Δ) :
    ∃ res, cubicCase L fuel p od oj C = some res ∧ Found p W od oj res := by
  have hp' : Prime (p : ℤ) := Nat.prime_iff_prime_int.1 hp
  have hp0 : (p : ℤ) ≠ 0 := hp'.ne_zero
  obtain ⟨b, hb⟩ := h5.a2
  obtain ⟨c, hc⟩ := h5.a4
  obtain ⟨d, hd⟩ := h5.a6
  have fb : C.a2.fdiv p = b := by rw [hC.a2]; exact fdiv_eq hp0 hb
  have fc : (C.a4.fdiv p).fdiv p = c := by rw [hC.a4]; exact fdiv_fdiv hp0 hc
  have fd : ((C.a6.fdiv p).fdiv p).fdiv p = d := by
    rw [hC.a6, fdiv_fdiv hp0 (show W.a₆ = (p : ℤ) ^ 2 * (p * d) by rw [hd]; ring)]
    exact fdiv_eq hp0 rfl
  unfold cubicCase
  simp only [fb, fc, fd]
  have ew : 27 * d * d - b * b * (c * c) + 4 * b * (b * b) * d - 18 * (b * c) * d + 4 * c * (c * c) = cw b c d := rfl
  rw [ew]
  by_cases hw : div (p : ℤ) (cw b c d) = true
  · rw [if_pos hw]
    rw [div_iff' hp0] at hw
    by_cases hx : div (p : ℤ) (3 * c - b * b) = true
    · rw [if_pos hx]
      rw [div_iff' hp0] at hx
      exact triple_spec L hp hC h5 hb hc hd hw hx
    · rw [if_neg hx]
      rw [div_iff' hp0] at hx
      generalize hρ : (if (p : ℤ) % 2 = 0 then root L c 2 p else if (p : ℤ) = 3 then c * invmod L.xg b p
        else (b * c - 9 * d) * invmod L.xg (2 * (3 * c - b * b)) p) = ρ
      obtain ⟨V, hV, hCV⟩ := hC.transform ((p : ℤ) * mod ρ p) 0 0
      have hS : StarLev p V 1 := double_spec L hp h5 hb hc hd rfl hw hx hρ.symm hV
      have hDV := hV.disc
      obtain ⟨q, hq, V', m, c', s1, s2, s3, s4, s5⟩ := starLoop_spec L hp (D := W.Δ) hD fuel 1 _ V hCV hDV
        le_rfl hS (by convert hf using 2)
      have hq' : starLoop L p fuel (C.transform (p * mod ρ p) 0 0) 3 3 (p * p) (p * p) = some q := by
        rw [← hq]; norm_num; rw [pow_two]
      rw [hq']
      refine ⟨_, rfl, Found.sim ((sim_iff.2 ⟨_, _, _, hV⟩ : Sim W V).trans s1)
        (Found.mk s2 s3 ?_ ?_ s5)⟩
      · simp only [Kodaira.components]; push_cast; linarith
      · simp only [Kodaira.code]; linarith
  · rw [if_neg hw]
    rw [div_iff' hp0] at hw
    refine ⟨_, rfl, Found.mk hC (k := .Istar 0) (c := 1 + cubRoots p W)
      ⟨h5.a1, h5.a2, h5.a3, h5.a4, h5.a6, ?_, rfl⟩ (by simp [Kodaira.components]; ring) rfl
      (by rw [cubRoots_eq L hp hb hc hd]; push_cast; rfl)⟩
    intro h
    apply hw
    rw [show cubDisc W = p ^ 6 * (-cw b c d) by unfold cubDisc cw; rw [hb, hc, hd]; ring] at h
    exact (dvd_neg.1 ((pow_mul_dvd hp0 6).1 h))

/-! ### after the first change of coordinates -/

theorem c4_b2 {p : ℕ} (hp : p.Prime) {W : WeierstrassCurve ℤ} (h : Lev1 p W) :
    (p : ℤ) ∣ W.c₄ ↔ (p : ℤ) ∣ W.b₂ := by
  have hp' : Prime (p : ℤ) := Nat.prime_iff_prime_int.1 hp
  unfold c₄
  rw [dvd_sub_left (h.b4.mul_left _)]
  exact ⟨hp'.dvd_of_dvd_pow, fun h => dvd_pow h (by norm_num)⟩

theorem afterFirst_spec (L : Lib) {p : ℕ} (hp : p.Prime) {fuel : ℕ} {oj : ℤ} {C : Cd}
    {W : WeierstrassCurve ℤ} (hC : Is C W) (h1 : Lev1 p W) (hD : W.Δ ≠ 0)
    (hf : ¬ (p : ℤ) ^ (fuel + 7) ∣ W.Δ) :
    ∃ res, afterFirst L fuel W.c₄ p (val p W.Δ) oj C = some res ∧ Found p W (val p W.Δ) oj res := by
  have hp' : Prime (p : ℤ) := Nat.prime_iff_prime_int.1 hp
  have hp0 : (p : ℤ) ≠ 0 := hp'.ne_zero
  unfold afterFirst
  by_cases hc4 : div (p : ℤ) W.c₄ = true
  · rw [hc4, if_neg (by simp)]
    rw [div_iff' hp0, c4_b2 hp h1] at hc4
    rw [hC.a6, hC.b8, hC.b6]
    split_ifs with q6 q8 qb6
    · rw [val_lt hp _ (by norm_num)] at q6
      exact ⟨_, rfl, Found.mk hC (k := .II) (c := 1) ⟨h1.a3, h1.a4, h1.a6, hc4, q6, rfl⟩
        (by simp [Kodaira.components]) rfl rfl⟩
    · rw [val_lt hp _ (by norm_num), not_not] at q6
      rw [val_lt hp _ (by norm_num)] at q8
      exact ⟨_, rfl, Found.mk hC (k := .III) (c := 2) ⟨h1.a3, h1.a4, hc4, q6, q8, rfl⟩
        (by simp [Kodaira.components]; ring) rfl rfl⟩
    · rw [val_lt hp _ (by norm_num), not_not] at q6 q8
      rw [val_lt hp _ (by norm_num)] at qb6
      obtain ⟨a3t, e3⟩ := h1.a3
      obtain ⟨a6t, e6⟩ := q6
      rw [hC.a3, fdiv_eq hp0 e3, fdiv_fdiv hp0 e6]
      obtain ⟨e, he, hes⟩ := rootsexist1_spec hp a3t (-a6t)
      rw [he]
      refine ⟨_, rfl, Found.mk hC (k := .IV) (c := if e then 3 else 1)
        ⟨h1.a3, h1.a4, hc4, ⟨_, e6⟩, q8, qb6, split_ite (hes.trans ?_) 3 1⟩
        (by simp [Kodaira.components]; ring) rfl (by cases e <;> rfl)⟩
      refine exists_congr fun Y => ?_
      rw [e3, e6, show ((p : ℤ) * Y) ^ 2 + p * a3t * (p * Y) - p ^ 2 * a6t =
        p ^ 2 * (Y ^ 2 + a3t * Y + -a6t) by ring]
      exact (pow_mul_dvd hp0 _).symm
    · rw [val_lt hp _ (by norm_num), not_not] at q6 q8 qb6
      simp only
      obtain ⟨V, hV, hCV⟩ := hC.transform 0 (second L p C).1 (second L p C).2
      have h5 := second_spec L hp hC ⟨⟨⟨h1, hc4⟩, q6⟩, q8⟩ qb6 hV
      have hDV := hV.disc
      obtain ⟨res, hr, hres⟩ := cubicCase_spec L hp (od := val p W.Δ) (oj := oj) (fuel := fuel) hCV h5
        (by rw [hDV]; exact hD) (by rw [hDV]; exact hf)
      exact ⟨res, hr, hres.sim (sim_iff.2 ⟨_, _, _, hV⟩)⟩
  · rw [if_pos (by simpa using hc4)]
    rw [div_iff' hp0, c4_b2 hp h1] at hc4
    obtain ⟨e, he, hes⟩ := rootsexist1_spec hp C.a1 (-C.a2)
    rw [he]
    have h2 : (2 : ℤ) ≤ |(p : ℤ)| := by
      rw [abs_of_nonneg (by positivity)]; exact_mod_cast hp.two_le
    obtain ⟨v1, v2⟩ := (Marith.Props.C06_val_big p W.Δ).1 h2 hD
    have hpos : 0 < val p W.Δ := by
      by_contra h0
      have h0' : val p W.Δ = 0 := by omega
      rw [h0'] at v2
      exact v2 (by simpa using h1.disc)
    generalize hn : val p W.Δ = n at *
    obtain ⟨n, rfl⟩ : ∃ m, n = m + 1 := ⟨n - 1, by omega⟩
    refine ⟨_, rfl, Found.mk hC (k := .I (n + 1))
      (c := if e then n + 1 else if Even (n + 1) then 2 else 1)
      ⟨h1.a3, h1.a4, h1.a6, hc4, v1, v2, split_ite (hes.trans ?_) _ _⟩
        (by simp [Kodaira.components]) (by simp [Kodaira.code]) ?_⟩
    · rw [hC.a1, hC.a2]
      exact exists_congr fun T => by rw [← sub_eq_add_neg]
    · cases e
      · simp only [Bool.false_eq_true, if_false]
        by_cases hev : Even (n + 1)
        · rw [if_pos hev, if_neg (by have := Nat.even_iff.1 hev; omega)]; rfl
        · rw [if_neg hev, if_pos (by have := Nat.not_even_iff.1 hev; omega)]; rfl
      · simp

/-- `ord_p_j` (curvered.cc:142-143) -/
def ordJ (p c4 discr : ℤ) : ℤ := max 0 ((val p discr : ℤ) - 3 * val p c4)

theorem tateP_spec (L : Lib) {p : ℕ} (hp : p.Prime) {fuel : ℕ} {C : Cd}
    {W : WeierstrassCurve ℤ} (hC : Is C W) (hp1 : (p : ℤ) ∣ W.Δ) (hD : W.Δ ≠ 0)
    (hf : ¬ (p : ℤ) ^ (fuel + 7) ∣ W.Δ) :
    ∃ res, tateP L fuel W.c₄ W.c₆ W.Δ p C = some res ∧ Found p W (val p W.Δ) (ordJ p W.c₄ W.Δ) res := by
  unfold tateP
  simp only
  obtain ⟨V, hV, hCV⟩ := hC.transform (mod (first L W.c₄ W.c₆ p C).1 p) 0 (mod (first L W.c₄ W.c₆ p C).2 p)
  have h1 := first_spec L hp hC hp1 hV
  have e : (if (val p W.Δ : ℤ) - 3 * val p W.c₄ < 0 then 0 else (val p W.Δ : ℤ) - 3 * val p W.c₄) =
      ordJ p W.c₄ W.Δ := by
    unfold ordJ
    split_ifs with h <;> omega
  rw [e]
  have hDV := hV.disc
  have hcV := hV.c4
  obtain ⟨res, hr, hres⟩ := afterFirst_spec L hp (fuel := fuel) (oj := ordJ p W.c₄ W.Δ) hCV h1
    (by rw [hDV]; exact hD) (by rw [hDV]; exact hf)
  rw [hDV, hcV] at hr
  rw [hDV] at hres
  exact ⟨res, hr, hres.sim (sim_iff.2 ⟨_, _, _, hV⟩)⟩

end Eclib.Tate
