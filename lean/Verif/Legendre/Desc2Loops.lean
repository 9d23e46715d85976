import Verif.Legendre.Desc2Proc

/-!
# The loops of `desc2`
-/

namespace Eclib.Desc2

open Legendre (CSol CParam solveConic solveConicParam solveConic_spec solveConicParam_spec)
open Marith (XGcd SqrRootMod isqrt)
open Forms (Q G SU)
open Forms.Spec (quad quart act)
open Spec (IsPrimeDivisorList)
open Sqf (makenum sqfmul)
open Local (globalHilbert globalHilbertQ localHilbert)

theorem sqfmul_supp {pl : List ℤ} {a b : ℤ} (ha : Squarefree a) (hb : Squarefree b) (sa : Supp pl a) (sb : Supp pl b) :
    Squarefree (sqfmul a b) ∧ Supp pl (sqfmul a b) := by
  refine ⟨(Sqf.sqfmul_spec ha hb).1, fun p h0 hp hd => ?_⟩
  have hg : (0 : ℤ) < Int.gcd a b := by
    have : Int.gcd a b ≠ 0 := fun h => ha.ne_zero (Int.gcd_eq_zero_iff.mp h).1
    exact_mod_cast Nat.pos_of_ne_zero this
  simp only [sqfmul] at hd
  have d1 : a.fdiv (Int.gcd a b) ∣ a := ⟨_, (Int.fdiv_mul_cancel (Int.gcd_dvd_left ..)).symm⟩
  have d2 : b.fdiv (Int.gcd a b) ∣ b := ⟨_, (Int.fdiv_mul_cancel (Int.gcd_dvd_right ..)).symm⟩
  exact (hp.dvd_or_dvd hd).elim (fun h => sa p h0 hp (h.trans d1)) (fun h => sb p h0 hp (h.trans d2))

theorem makenum_ok {pl : List ℤ} (mask : ℕ) (l : List ℤ) (hl : ∀ x ∈ l, Squarefree x ∧ Supp pl x) (i : ℕ)
    (hi : i + l.length ≤ 31) (ans : ℤ) (ha : Squarefree ans ∧ Supp pl ans) :
    ∃ x, Sqf.makenumLoop mask l i ans = some x ∧ Squarefree x ∧ Supp pl x := by
  induction l generalizing i ans with
  | nil => exact ⟨ans, rfl, ha⟩
  | cons p l ih =>
    simp only [List.length_cons] at hi
    have hl' : ∀ x ∈ l, Squarefree x ∧ Supp pl x := fun x hx => hl x (List.mem_cons_of_mem _ hx)
    have hp := hl p List.mem_cons_self
    have e : Bits.testbit mask i = some (mask.testBit i) := by
      unfold Bits.testbit
      rw [if_pos (by omega)]
    unfold Sqf.makenumLoop
    rw [e]
    cases mask.testBit i with
    | true => exact ih hl' (i + 1) (by omega) _ (sqfmul_supp ha.1 hp.1 ha.2 hp.2)
    | false => exact ih hl' (i + 1) (by omega) _ ha

theorem supp_one (pl : List ℤ) : Supp pl 1 := fun _ _ hp hd => absurd (isUnit_of_dvd_one hd) hp.not_isUnit

/-- the hypotheses on the lists -/
structure Lists (c d1 d2 : ℤ) (plist : List ℤ) : Prop where
  pl : PList plist
  two : (2 : ℤ) ∈ plist
  s1 : Supp plist d1
  s2 : Supp plist d2
  sD : Supp plist (c ^ 2 - 4 * d1 * d2)

theorem Supp.mono {a b : List ℤ} (h : ∀ x ∈ a, x ∈ b) {n : ℤ} (hn : Supp a n) : Supp b n :=
  fun p h0 hp hd => h p (hn p h0 hp hd)

/-- the invariant of the first loop -/
structure Inv (c d1 d2 : ℤ) (q1 q3 : Q) (plist : List ℤ) (st : DSt) : Prop where
  fb : PList st.fb
  sub : ∀ p ∈ plist, p ∈ st.fb
  big : st.big = true → Supp st.fb q1.a ∧ Supp st.fb q3.a
  keep : st.looking = false → st.big = true ∧ Squarefree st.keep ∧ Supp plist st.keep
  found : st.found = true → HPoint c d1 d2 st.pt.1 st.pt.2.1 st.pt.2.2

theorem tryD3_spec (X : XGcd) (S : SqrRootMod) {L : DLib} (hL : L.Ok) {c d1 d2 : ℤ} {q1 q2 q3 : Q}
    (h : Par c d1 d2 q1 q2 q3) {plist : List ℤ} (hl : Lists c d1 d2 plist) (so : Bool) {d3 : ℤ} (h3 : Squarefree d3)
    (s3 : Supp plist d3) {st : DSt} (I : Inv c d1 d2 q1 q3 plist st) :
    ∃ st', tryD3 X S L plist ⟨d1, c, d2⟩ q1 q3 so d3 st = some st' ∧ Inv c d1 d2 q1 q3 plist st' ∧
      (st'.looking = true → st.looking = true ∧ ¬ LocClass q1 q3 d3) ∧
      (st'.found = true → st.found = true ∨ st'.looking = false) := by
  have hq1 : q1.b ^ 2 - 4 * q1.a * q1.c ≠ 0 := by
    rw [h.disc1]; exact mul_ne_zero (by norm_num) h.h2
  have hq3 : q3.b ^ 2 - 4 * q3.a * q3.c ≠ 0 := by
    rw [h.disc3]; exact mul_ne_zero (by norm_num) h.h1
  obtain ⟨r1, e1, k1⟩ := globalHilbertQ_ok h.a1 h3.ne_zero hq1 st.fb I.fb.pr
  obtain ⟨r3, e3, k3⟩ := globalHilbertQ_ok h.a3 h3.ne_zero hq3 st.fb I.fb.pr
  unfold tryD3
  rw [e1, e3]
  simp only
  by_cases c1 : r1.1 ≠ 0 ∨ r3.1 ≠ 0
  · rw [if_pos c1]
    refine ⟨st, rfl, I, fun hlk => ⟨hlk, ?_⟩, fun hf => Or.inl hf⟩
    intro hc
    rcases c1 with c1 | c1
    · exact k1 c1 hc.conic1
    · exact k3 c1 hc.conic3
  · rw [if_neg c1]
    obtain ⟨fb, hfb⟩ : ∃ fb, (if st.big = true then st.fb else
        setUnion (setUnion st.fb (L.pdivs q1.a)) (L.pdivs q3.a)) = fb := ⟨_, rfl⟩
    rw [hfb]
    obtain ⟨i1, i2⟩ := hL.pdivs _ h.a1
    obtain ⟨j1, j2⟩ := hL.pdivs _ h.a3
    have hF : PList fb ∧ (∀ p ∈ plist, p ∈ fb) ∧ Supp fb q1.a ∧ Supp fb q3.a := by
      rw [← hfb]
      split_ifs with hb
      · exact ⟨I.fb, I.sub, I.big hb⟩
      · refine ⟨⟨fun p hp => ?_, sorted_setUnion _ _ (sorted_setUnion _ _ I.fb.sorted i2) j2⟩, fun p hp => ?_,
          fun p h0 hp hd => ?_, fun p h0 hp hd => ?_⟩
        · rw [mem_setUnion, mem_setUnion] at hp
          rcases hp with (hp | hp) | hp
          · exact I.fb.pr p hp
          · exact ⟨((i1.mem p).mp hp).1, ((i1.mem p).mp hp).2.1⟩
          · exact ⟨((j1.mem p).mp hp).1, ((j1.mem p).mp hp).2.1⟩
        · rw [mem_setUnion, mem_setUnion]; exact Or.inl (Or.inl (I.sub p hp))
        · rw [mem_setUnion, mem_setUnion]; exact Or.inl (Or.inr ((i1.mem p).mpr ⟨h0, hp, hd⟩))
        · rw [mem_setUnion]; exact Or.inr ((j1.mem p).mpr ⟨h0, hp, hd⟩)
    obtain ⟨F1, F2, F3, F4⟩ := hF
    obtain ⟨p1, p2, p3⟩ := processD3_spec X S hL h hl.pl F1 F2 hl.two hl.s1 hl.s2 hl.sD F3 F4 so h3 s3
    cases hr : processD3 X S L plist fb ⟨d1, c, d2⟩ q1 q3 so d3 with
    | problem => exact absurd hr p1
    | notEls =>
      exact ⟨_, rfl, ⟨F1, F2, fun _ => ⟨F3, F4⟩, fun hk => ⟨rfl, (I.keep hk).2⟩, I.found⟩,
        fun hlk => ⟨hlk, p2 hr⟩, fun hf => Or.inl hf⟩
    | noPoint =>
      exact ⟨_, rfl, ⟨F1, F2, fun _ => ⟨F3, F4⟩, fun _ => ⟨rfl, h3, s3⟩, I.found⟩,
        fun hlk => by simp at hlk, fun hf => Or.inl hf⟩
    | point x y z =>
      exact ⟨_, rfl, ⟨F1, F2, fun _ => ⟨F3, F4⟩, fun _ => ⟨rfl, h3, s3⟩, fun _ => p3 x y z hr⟩,
        fun hlk => by simp at hlk, fun _ => Or.inr rfl⟩

theorem loop1_spec (X : XGcd) (S : SqrRootMod) {L : DLib} (hL : L.Ok) {c d1 d2 : ℤ} {q1 q2 q3 : Q}
    (h : Par c d1 d2 q1 q2 q3) {plist : List ℤ} (hl : Lists c d1 d2 plist) (so ad add2 : Bool) {supp : List ℤ}
    (hs : ∀ x ∈ supp, Squarefree x ∧ Supp plist x) (hlen : supp.length ≤ 31) (mask : ℕ)
    (hadd : add2 = true → ∀ i d3, makenum supp i = some d3 → Squarefree (2 * d3)) (is : List ℕ) {st : DSt}
    (I : Inv c d1 d2 q1 q3 plist st) (hfl : st.found = true → st.looking = false) :
    ∃ st', loop1 X S L plist ⟨d1, c, d2⟩ q1 q3 so ad add2 supp mask is st = some st' ∧ Inv c d1 d2 q1 q3 plist st' ∧
      (st'.found = true → st'.looking = false) ∧
      (st'.looking = true → st.looking = true ∧ ∀ i ∈ is, i &&& mask = 0 → ∀ d3, makenum supp i = some d3 →
        ¬ LocClass q1 q3 d3 ∧ (add2 = true → ¬ LocClass q1 q3 (2 * d3))) := by
  induction is generalizing st with
  | nil => exact ⟨st, rfl, I, hfl, fun hlk => ⟨hlk, by simp⟩⟩
  | cons i is ih =>
    unfold loop1
    by_cases hc : (st.looking || ad) = true
    swap
    · rw [if_neg hc]
      refine ⟨st, rfl, I, hfl, fun hlk => ?_⟩
      rw [hlk] at hc
      simp at hc
    rw [if_pos hc]
    obtain ⟨d3, e3, sq3, su3⟩ := makenum_ok (pl := plist) i supp hs 0 (by omega) 1 ⟨squarefree_one, supp_one _⟩
    have e3' : makenum supp i = some d3 := e3
    rw [e3']
    simp only
    by_cases hm : i &&& mask ≠ 0
    · rw [if_pos hm]
      obtain ⟨st', a1, a2, a3, a4⟩ := ih I hfl
      refine ⟨st', a1, a2, a3, fun hlk => ⟨(a4 hlk).1, fun j hj hj0 => ?_⟩⟩
      rcases List.mem_cons.mp hj with rfl | hj
      · exact absurd hj0 hm
      · exact (a4 hlk).2 j hj hj0
    rw [if_neg hm]
    obtain ⟨st1, b1, b2, b3, b4⟩ := tryD3_spec X S hL h hl so sq3 su3 I
    have hfl1 : st1.found = true → st1.looking = false := by
      intro hf
      rcases b4 hf with hf | hf
      · by_contra hlk
        have := (b3 (by simpa using hlk)).1
        rw [hfl hf] at this
        exact absurd this (by simp)
      · exact hf
    rw [b1]
    simp only
    by_cases hc2 : ((st1.looking || ad) && add2) = true
    · rw [if_pos hc2]
      have ha2 : add2 = true := (Bool.and_eq_true_iff.mp hc2).2
      have sq2 := hadd ha2 i d3 e3'
      have su2 : Supp plist (2 * d3) := Supp.mul (fun p h0 hp hd => Supp.four hl.two p h0 hp (hd.trans ⟨2, by norm_num⟩)) su3
      obtain ⟨st2, c1, c2, c3, c4⟩ := tryD3_spec X S hL h hl so sq2 su2 b2
      have hfl2 : st2.found = true → st2.looking = false := by
        intro hf
        rcases c4 hf with hf | hf
        · by_contra hlk
          have := (c3 (by simpa using hlk)).1
          rw [hfl1 hf] at this
          exact absurd this (by simp)
        · exact hf
      rw [c1]
      simp only
      obtain ⟨st', a1, a2, a3, a4⟩ := ih c2 hfl2
      refine ⟨st', a1, a2, a3, fun hlk => ?_⟩
      have k2 := c3 (a4 hlk).1
      have k1 := b3 k2.1
      refine ⟨k1.1, fun j hj hj0 e he => ?_⟩
      rcases List.mem_cons.mp hj with rfl | hj
      · rw [e3'] at he
        obtain rfl := Option.some.inj he
        exact ⟨k1.2, fun _ => k2.2⟩
      · exact (a4 hlk).2 j hj hj0 e he
    · rw [if_neg hc2]
      obtain ⟨st', a1, a2, a3, a4⟩ := ih b2 hfl1
      refine ⟨st', a1, a2, a3, fun hlk => ?_⟩
      have k1 := b3 (a4 hlk).1
      refine ⟨k1.1, fun j hj hj0 e he => ?_⟩
      rcases List.mem_cons.mp hj with rfl | hj
      · rw [e3'] at he
        obtain rfl := Option.some.inj he
        refine ⟨k1.2, fun ha2 => ?_⟩
        rw [(a4 hlk).1, ha2] at hc2
        simp at hc2
      · exact (a4 hlk).2 j hj hj0 e he

theorem loop2_spec (X : XGcd) (S : SqrRootMod) {L : DLib} (hL : L.Ok) {c d1 d2 : ℤ} {q1 q2 q3 : Q}
    (h : Par c d1 d2 q1 q2 q3) {plist : List ℤ} (hl : Lists c d1 d2 plist) (ad : Bool) {bgens : List ℤ}
    (hs : ∀ x ∈ bgens, Squarefree x ∧ Supp plist x) (hlen : bgens.length ≤ 31) {st : DSt}
    (I : Inv c d1 d2 q1 q3 plist st) (hlk : st.looking = false) (is : List ℕ) (found : D2)
    (hf : found = .undecided ∨ ∃ x y z, found = .point x y z ∧ HPoint c d1 d2 x y z) :
    loop2 X S L plist st.fb ⟨d1, c, d2⟩ q1 q3 ad st.keep bgens is found = .undecided ∨
      ∃ x y z, loop2 X S L plist st.fb ⟨d1, c, d2⟩ q1 q3 ad st.keep bgens is found = .point x y z ∧
        HPoint c d1 d2 x y z := by
  induction is generalizing found with
  | nil => exact hf
  | cons i is ih =>
    unfold loop2
    obtain ⟨k, e3, sq3, su3⟩ := makenum_ok (pl := plist) i bgens hs 0 (by omega) 1 ⟨squarefree_one, supp_one _⟩
    have e3' : makenum bgens i = some k := e3
    rw [e3']
    simp only
    obtain ⟨K1, K2, K3⟩ := I.keep hlk
    obtain ⟨sqk, suk⟩ := sqfmul_supp K2 sq3 K3 su3
    obtain ⟨F3, F4⟩ := I.big K1
    obtain ⟨p1, p2, p3⟩ := processD3_spec X S hL h hl.pl I.fb I.sub hl.two hl.s1 hl.s2 hl.sD F3 F4 false sqk suk
    cases hr : processD3 X S L plist st.fb ⟨d1, c, d2⟩ q1 q3 false (sqfmul st.keep k) with
    | problem => exact absurd hr p1
    | notEls => exact ih found hf
    | noPoint => exact ih found hf
    | point x y z =>
      simp only
      split_ifs
      · exact Or.inr ⟨x, y, z, rfl, p3 x y z hr⟩
      · exact ih _ (Or.inr ⟨x, y, z, rfl, p3 x y z hr⟩)

end Eclib.Desc2
