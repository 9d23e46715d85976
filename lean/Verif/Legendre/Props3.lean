import Verif.Legendre.Desc2Loops

/-!
# C95: second descent

The specification: `HPoint` (a point of `y² = d1 x⁴ + c x² z² + d2 z⁴` in lowest terms), `GPoint` (a point of a quartic),
`HasClass` (the class of a point).  `DLib.Ok` says what is assumed of the parts which are parameters of the model.
-/

namespace Eclib.Desc2

open Legendre (CSol CParam solveConic solveConicParam solveConic_spec solveConicParam_spec)
open Marith (XGcd SqrRootMod isqrt)
open Marith.Props (xgcd0 sqr0)
open Forms (Q G SU)
open Forms.Spec (quad quart act)
open Spec (IsPrimeDivisorList)
open Sqf (makenum sqfmul suppOf Base)

/-! ## an instance of the parameters -/

/-- primality by trial division -/
def isP (p : ℕ) : Bool := decide (2 ≤ p) && (List.range p).all fun d => decide (p % d = 0 → d = 1)

theorem isP_iff (p : ℕ) : isP p = true ↔ p.Prime := by
  rw [Nat.prime_def_lt]
  simp only [isP, Bool.and_eq_true, decide_eq_true_eq, List.all_eq_true, List.mem_range, Nat.dvd_iff_mod_eq_zero]

/-- the prime divisors by trial division -/
def pdivs1 (n : ℤ) : List ℤ :=
  ((List.range (n.natAbs + 1)).filter fun p => isP p && decide (n.natAbs % p = 0)).map fun p : ℕ => (p : ℤ)

theorem pdivs1_ok (n : ℤ) (hn : n ≠ 0) : IsPrimeDivisorList n (pdivs1 n) ∧ (pdivs1 n).Pairwise (· < ·) := by
  have hs : (pdivs1 n).Pairwise (· < ·) := by
    unfold pdivs1
    rw [List.pairwise_map]
    exact (List.pairwise_lt_range.filter _).imp fun h => by exact_mod_cast h
  refine ⟨⟨hs.imp ne_of_lt, fun p => ?_⟩, hs⟩
  simp only [pdivs1, List.mem_map, List.mem_filter, List.mem_range, Bool.and_eq_true, isP_iff, decide_eq_true_eq]
  constructor
  · rintro ⟨q, ⟨-, hq, hd⟩, rfl⟩
    exact ⟨by exact_mod_cast hq.pos, Nat.prime_iff_prime_int.mp hq, Int.natCast_dvd.mpr (Nat.dvd_of_mod_eq_zero hd)⟩
  · rintro ⟨h0, hp, hd⟩
    have h1 : p.natAbs ∣ n.natAbs := Int.natAbs_dvd_natAbs.mpr hd
    exact ⟨p.natAbs, ⟨Nat.lt_succ_of_le (Nat.le_of_dvd (by omega) h1), Int.prime_iff_natAbs_prime.mp hp,
      Nat.mod_eq_zero_of_dvd h1⟩, by omega⟩

/-- the method for small primes also for large ones, no reduction, search in a small box -/
def lib0 : DLib where
  pdivs := pdivs1
  ss := fun a b c d e p => LocSol.qpsoluble ((G.mk a b c d e).disc.natAbs + 2) a b c d e p
  redQ := fun _ => Forms.U.one
  search := fun g => ((List.range 9).flatMap fun i : ℕ => (List.range 5).map fun j : ℕ => ((i : ℤ) - 4, (j : ℤ))).findSome?
    fun p => if (p.1 ≠ 0 ∨ p.2 ≠ 0) ∧ (isqrt (quart g.a g.b g.c g.d g.e p.1 p.2)).1 = true then
      some (p.1, ((isqrt (quart g.a g.b g.c g.d g.e p.1 p.2)).2 : ℤ), p.2) else none

theorem lib0_ok : lib0.Ok where
  pdivs := pdivs1_ok
  ss := fun g p hD h hp => by
    lift p to ℕ using by omega
    have : Fact p.Prime := ⟨Nat.prime_iff_prime_int.mpr hp⟩
    rw [LocSol.pointAt_prime]
    exact LocSol.qpsoluble_bound g.a g.b g.c g.d g.e (by rwa [LocSol.disc27_eq]) (by rw [LocSol.disc27_eq])
  redQ := fun g _ => by simp [lib0, Forms.U.one, Forms.U.det]
  search := fun g x y z h => by
    obtain ⟨p, -, hp⟩ := List.exists_of_findSome?_eq_some h
    split_ifs at hp with hc
    simp only [Option.some.injEq, Prod.mk.injEq] at hp
    obtain ⟨rfl, rfl, rfl⟩ := hp
    refine ⟨by rw [sq]; exact (Marith.isqrt_sound _ hc.2).symm, ?_⟩
    rintro ⟨h1, h2⟩
    exact hc.1.elim (fun h => h h1) (fun h => h h2)

/-! ## C95 -/

/-- `g_content` returns the largest number whose square divides the coefficients (its comment says the largest square):
the numbers whose square divides the coefficients are its divisors. -/
theorem C95_g_content (pd : ℤ → List ℤ) (hpd : ∀ n, n ≠ 0 → IsPrimeDivisorList n (pd n)) (g : G)
    (hg : ¬ (g.a = 0 ∧ g.b = 0 ∧ g.c = 0 ∧ g.d = 0 ∧ g.e = 0)) :
    0 < gContent pd g ∧ ∀ k : ℤ, k ∣ gContent pd g ↔
      k ^ 2 ∣ g.a ∧ k ^ 2 ∣ g.b ∧ k ^ 2 ∣ g.c ∧ k ^ 2 ∣ g.d ∧ k ^ 2 ∣ g.e := gContent_spec pd hpd g hg

example : gContent pdivs1 ⟨72, 0, 144, 36, 108⟩ = 6 := by decide +kernel

/-- The parametrization of `solve_conic_param` reaches every solution, up to the sign of `y`; the values of the first
and the third quadratic have no common zero and their resultant is `d²(b²-4ac)`. -/
theorem C95_param_complete {a b c d : ℤ} {qx qy qz : Q} (h : CParam a b c d qx qy qz) (hd : d ≠ 0)
    (hD : b ^ 2 - 4 * a * c ≠ 0) :
    (∀ x y z, CSol a b c d x y z → ∃ s t, IsCoprime s t ∧ z * quad qx.a qx.b qx.c s t = x * quad qz.a qz.b qz.c s t) ∧
    (∀ s t, ¬ (s = 0 ∧ t = 0) → ¬ (quad qx.a qx.b qx.c s t = 0 ∧ quad qz.a qz.b qz.c s t = 0)) ∧
    (qx.a * qz.c - qx.c * qz.a) ^ 2 - (qx.a * qz.b - qx.b * qz.a) * (qx.b * qz.c - qx.c * qz.b) =
      d ^ 2 * (b ^ 2 - 4 * a * c) :=
  ⟨fun _ _ _ hs => CParam.surj h hs.eqn, fun _ _ hst => CParam.ne_zero h hd hD hst, CParam.res h⟩

/-- the descendent quartic has the invariants of the homogeneous space, scaled -/
theorem C95_invariants {c d1 d2 d3 : ℤ} {q1 q2 q3 Q1 Q2 Q3 : Q} (h : CParam d1 c d2 1 q1 q2 q3)
    (H : CParam q1.a q1.b q1.c d3 Q1 Q2 Q3) :
    (quarticOf q3 Q1 Q3 d3).II = 16 * d3 ^ 4 * (c ^ 2 - 3 * (d1 * d2)) ∧
    (quarticOf q3 Q1 Q3 d3).JJ = -(64 * d3 ^ 6 * c * (2 * c ^ 2 - 9 * (d1 * d2))) ∧
    (quarticOf q3 Q1 Q3 d3).disc = 110592 * d3 ^ 12 * (d1 * d2) ^ 2 * (c ^ 2 - 4 * d1 * d2) := quarticOf_disc h H

/-- `process_d3`, for square-free `d3` and a factor base with the primes needed: "process_d3 failed!" is never reached,
a point returned is a point of the homogeneous space in lowest terms, and the answer -1 implies that `d3` is not the class
of points over the real numbers and all the `p`-adic numbers; in particular no point of the homogeneous space has class
`d3`. -/
theorem C95_process_d3 (X : XGcd) (S : SqrRootMod) (L : DLib) (hL : L.Ok) (c d1 d2 d3 : ℤ) (q1 q2 q3 : Q)
    (plist fb : List ℤ) (so : Bool) (h1 : ¬ IsSquare d1) (h2 : ¬ IsSquare d2) (hD : c ^ 2 - 4 * d1 * d2 ≠ 0)
    (hp : CParam d1 c d2 1 q1 q2 q3) (hpl : PList plist) (hfb : PList fb)
    (hsub : ∀ p ∈ plist, p ∈ fb)
    (hbad : ∀ p, 0 < p → Prime p → p ∣ 2 * d1 * d2 * (c ^ 2 - 4 * d1 * d2) * d3 → p ∈ plist)
    (hall : ∀ p, 0 < p → Prime p → p ∣ q1.a * q3.a → p ∈ fb) (h3 : Squarefree d3) :
    processD3 X S L plist fb ⟨d1, c, d2⟩ q1 q3 so d3 ≠ .problem ∧
    (processD3 X S L plist fb ⟨d1, c, d2⟩ q1 q3 so d3 = .notEls → ¬ LocClass q1 q3 d3) ∧
    ∀ x y z, processD3 X S L plist fb ⟨d1, c, d2⟩ q1 q3 so d3 = .point x y z → HPoint c d1 d2 x y z := by
  have s : ∀ n, n ∣ 2 * d1 * d2 * (c ^ 2 - 4 * d1 * d2) * d3 → Supp plist n :=
    fun n hn p h0 hp hd => hbad p h0 hp (hd.trans hn)
  exact processD3_spec X S hL (Par.of h1 h2 hD hp) hpl hfb hsub
    (hbad 2 two_pos Int.prime_two ⟨d1 * d2 * (c ^ 2 - 4 * d1 * d2) * d3, by ring⟩)
    (s _ ⟨2 * d2 * (c ^ 2 - 4 * d1 * d2) * d3, by ring⟩) (s _ ⟨2 * d1 * (c ^ 2 - 4 * d1 * d2) * d3, by ring⟩)
    (s _ ⟨2 * d1 * d2 * d3, by ring⟩) (fun p h0 hp hd => hall p h0 hp (hd.trans ⟨q3.a, rfl⟩))
    (fun p h0 hp hd => hall p h0 hp (hd.trans ⟨q1.a, by ring⟩)) so h3
    (s _ ⟨2 * d1 * d2 * (c ^ 2 - 4 * d1 * d2), by ring⟩)

/-- the lists given to `desc2` -/
structure DHyp (c d1 d2 : ℤ) (plist supp bgens : List ℤ) : Prop where
  h1 : ¬ IsSquare d1
  h2 : ¬ IsSquare d2
  hD : c ^ 2 - 4 * d1 * d2 ≠ 0
  pr : ∀ p ∈ plist, 0 < p ∧ Prime p
  sorted : plist.Pairwise (· < ·)
  all : ∀ p, 0 < p → Prime p → p ∣ 2 * d1 * d2 * (c ^ 2 - 4 * d1 * d2) → p ∈ plist
  sp : ∀ x ∈ supp, x = -1 ∨ x ∈ plist
  slen : supp.length ≤ 30
  bg : ∀ x ∈ bgens, Squarefree x ∧ ∀ p, 0 < p → Prime p → p ∣ x → p ∈ plist
  blen : bgens.length ≤ 30

/-- the alternatives for the result -/
theorem desc2_spec (X : XGcd) (S : SqrRootMod) {L : DLib} (hL : L.Ok) {c d1 d2 : ℤ} {plist supp bgens : List ℤ}
    (mask : ℕ) (so ad : Bool) (h : DHyp c d1 d2 plist supp bgens) :
    (desc2 X S L c d1 d2 plist supp bgens mask so ad = .undecided) ∨
    (∃ x y z, desc2 X S L c d1 d2 plist supp bgens mask so ad = .point x y z ∧ HPoint c d1 d2 x y z) ∨
    (desc2 X S L c d1 d2 plist supp bgens mask so ad = .noPoints ∧
      ((¬ ∃ x y z, CSol d1 c d2 1 x y z) ∨ ∃ q1 q2 q3, CParam d1 c d2 1 q1 q2 q3 ∧
        ∀ i < 2 ^ supp.length, i &&& mask = 0 → ∀ d3, makenum supp i = some d3 → ¬ LocClass q1 q3 d3 ∧
          ((16 ∣ c ^ 2 - 4 * d1 * d2 ∧ ¬ 32 ∣ c ^ 2 - 4 * d1 * d2 ∧ 2 ∉ supp) → ¬ LocClass q1 q3 (2 * d3)))) := by
  have hd1 : d1 ≠ 0 := fun h0 => h.h1 (h0 ▸ IsSquare.zero)
  have s : ∀ n, n ∣ 2 * d1 * d2 * (c ^ 2 - 4 * d1 * d2) → Supp plist n :=
    fun n hn p h0 hp hd => h.all p h0 hp (hd.trans hn)
  have hpl : PList plist := ⟨h.pr, h.sorted⟩
  have hl : Lists c d1 d2 plist := ⟨hpl, h.all 2 two_pos Int.prime_two ⟨d1 * d2 * (c ^ 2 - 4 * d1 * d2), by ring⟩,
    s _ ⟨2 * d2 * (c ^ 2 - 4 * d1 * d2), by ring⟩, s _ ⟨2 * d1 * (c ^ 2 - 4 * d1 * d2), by ring⟩,
    s _ ⟨2 * d1 * d2, by ring⟩⟩
  have sD : Supp plist (c ^ 2 - 4 * d1 * d2) := s _ ⟨2 * d1 * d2, by ring⟩
  have hsup : ∀ pl : List ℤ, (∀ x ∈ supp, x = -1 ∨ x ∈ pl) → ∀ x ∈ supp, Squarefree x ∧ Supp pl x := by
    intro pl hpl' x hx
    rcases hpl' x hx with rfl | hxp
    · refine ⟨IsUnit.squarefree isUnit_neg_one, fun p _ hp hd => absurd (isUnit_of_dvd_unit hd isUnit_neg_one) hp.not_isUnit⟩
    · rcases h.sp x hx with rfl | hxq
      · exact ⟨IsUnit.squarefree isUnit_neg_one, fun p _ hp hd => absurd (isUnit_of_dvd_unit hd isUnit_neg_one) hp.not_isUnit⟩
      · obtain ⟨x0, xp⟩ := h.pr x hxq
        refine ⟨xp.squarefree, fun p h0 hp hd => ?_⟩
        have : p = x := by
          rcases Int.associated_iff.mp (hp.associated_of_dvd xp hd) with h | h
          · exact h
          · omega
        rw [this]; exact hxp
  unfold desc2
  simp only
  rcases solveConicParam_spec X S hd1 squarefree_one h.hD hpl.pr hpl.nodup
    (by rw [mul_one]; exact sD.mul hl.s1) with ⟨q1, q2, q3, e1, hp⟩ | ⟨e1, hn⟩
  swap
  · rw [e1]
    exact Or.inr (Or.inr ⟨rfl, Or.inl hn⟩)
  rw [e1]
  simp only
  rw [if_neg (by have := h.slen; omega)]
  have P := Par.of h.h1 h.h2 h.hD hp
  have hDe : c ^ 2 - 4 * (d1 * d2) = c ^ 2 - 4 * d1 * d2 := by ring
  rw [hDe]
  obtain ⟨add2, hadd2⟩ : ∃ b, (decide (Marith.val 2 (c ^ 2 - 4 * d1 * d2) = 4) && !supp.contains 2) = b := ⟨_, rfl⟩
  have hval := Marith.val_spec 2 (c ^ 2 - 4 * d1 * d2) (by norm_num) h.hD
  have hadd : add2 = true ↔ (16 ∣ c ^ 2 - 4 * d1 * d2 ∧ ¬ 32 ∣ c ^ 2 - 4 * d1 * d2 ∧ 2 ∉ supp) := by
    rw [← hadd2, Bool.and_eq_true, decide_eq_true_eq]
    simp only [Bool.not_eq_true', List.contains_iff_mem, ← Bool.not_eq_true]
    constructor
    · rintro ⟨h4, h5⟩
      rw [h4] at hval
      exact ⟨by simpa using hval.1, by simpa using hval.2, h5⟩
    · rintro ⟨h4, h5, h6⟩
      refine ⟨?_, h6⟩
      by_contra hne
      rcases lt_or_gt_of_ne hne with hlt | hgt
      · exact hval.2 ((pow_dvd_pow 2 (show Marith.val 2 (c ^ 2 - 4 * d1 * d2) + 1 ≤ 4 by omega)).trans (by simpa using h4))
      · exact h5 ((show (32 : ℤ) = 2 ^ 5 by norm_num) ▸ (pow_dvd_pow 2 (show 5 ≤ Marith.val 2 (c ^ 2 - 4 * d1 * d2) by omega)).trans hval.1)
  rw [hadd2]
  have I0 : Inv c d1 d2 q1 q3 plist ⟨true, false, 0, (0, 0, 0), plist, false⟩ :=
    ⟨hpl, fun p hp => hp, by simp, by simp, by simp⟩
  obtain ⟨st, b1, b2, b3, b4⟩ := loop1_spec X S hL P hl so ad add2 (hsup plist h.sp) (by have := h.slen; omega) mask
    (by
      intro ha i d3 hi
      obtain ⟨-, -, h2s⟩ := hadd.mp ha
      obtain ⟨x, e, sq, su⟩ := makenum_ok (pl := supp) i supp (hsup supp (fun x hx => Or.inr hx)) 0
        (by have := h.slen; omega) 1 ⟨squarefree_one, supp_one _⟩
      have hx : x = d3 := Option.some.inj (e.symm.trans hi)
      rw [← hx]
      have hco : IsCoprime (2 : ℤ) x := Int.prime_two.coprime_iff_not_dvd.mpr fun hd =>
        h2s (su 2 two_pos Int.prime_two hd)
      exact squarefree_mul_iff.mpr ⟨hco.isRelPrime, Int.prime_two.squarefree, sq⟩)
    (List.range (2 ^ supp.length)) I0 (by simp)
  rw [b1]
  simp only
  by_cases c1 : st.found = true
  · rw [if_pos c1]
    exact Or.inr (Or.inl ⟨_, _, _, rfl, b2.found c1⟩)
  rw [if_neg c1]
  by_cases c2 : st.looking = true
  · rw [if_pos c2]
    refine Or.inr (Or.inr ⟨rfl, Or.inr ⟨q1, q2, q3, hp, fun i hi him d3 hd3 => ?_⟩⟩)
    obtain ⟨k1, k2⟩ := (b4 c2).2 i (List.mem_range.mpr hi) him d3 hd3
    exact ⟨k1, fun hx => k2 (hadd.mpr hx)⟩
  rw [if_neg c2]
  by_cases c3 : so = true
  · rw [if_pos c3]; exact Or.inl rfl
  rw [if_neg c3, if_neg (by have := h.blen; omega)]
  by_cases c4 : 2 ^ bgens.length = if (isqrt (c ^ 2 - 4 * d1 * d2)).1 = true then 1 else 2
  · rw [if_pos c4]; exact Or.inl rfl
  rw [if_neg c4]
  rcases loop2_spec X S hL P hl ad h.bg (by have := h.blen; omega) b2 (by simpa using c2) _ .undecided (Or.inl rfl)
    with h5 | ⟨x, y, z, h5, h6⟩
  · exact Or.inl h5
  · exact Or.inr (Or.inl ⟨x, y, z, h5, h6⟩)

/-- `desc2`: no failure is reached; a point returned is a point of the homogeneous space in lowest terms; and the answer
-1 implies that the conic `d1 X² + c X Z + d2 Z² = Y²` has no point or none of the numbers `d3` examined is the class of
points at all places. -/
theorem C95_desc2 (X : XGcd) (S : SqrRootMod) (L : DLib) (hL : L.Ok) (c d1 d2 : ℤ) (plist supp bgens : List ℤ)
    (mask : ℕ) (so ad : Bool) (h : DHyp c d1 d2 plist supp bgens) :
    desc2 X S L c d1 d2 plist supp bgens mask so ad ≠ .problem ∧
    (∀ x y z, desc2 X S L c d1 d2 plist supp bgens mask so ad = .point x y z → HPoint c d1 d2 x y z) ∧
    (desc2 X S L c d1 d2 plist supp bgens mask so ad = .noPoints →
      ((¬ ∃ x y z, CSol d1 c d2 1 x y z) ∨ ∃ q1 q2 q3, CParam d1 c d2 1 q1 q2 q3 ∧
        ∀ i < 2 ^ supp.length, i &&& mask = 0 → ∀ d3, makenum supp i = some d3 → ¬ LocClass q1 q3 d3 ∧
          ((16 ∣ c ^ 2 - 4 * d1 * d2 ∧ ¬ 32 ∣ c ^ 2 - 4 * d1 * d2 ∧ 2 ∉ supp) → ¬ LocClass q1 q3 (2 * d3)))) := by
  rcases desc2_spec X S hL mask so ad h with h1 | ⟨x, y, z, h1, h2⟩ | ⟨h1, h2⟩
  · rw [h1]; exact ⟨by simp, by simp, by simp⟩
  · rw [h1]
    refine ⟨by simp, fun x' y' z' he => ?_, by simp⟩
    simp only [D2.point.injEq] at he
    obtain ⟨rfl, rfl, rfl⟩ := he
    exact h2
  · rw [h1]; exact ⟨by simp, by simp, fun _ => h2⟩

/-- the homogeneous space of `g` of the other curve, `y² = g x⁴ - 2c x² z² + g' z⁴` with `g g' = c² - 4 d1 d2`, over a field -/
def KHom (c g g' : ℤ) (K : Type) [Field K] : Prop :=
  ∃ x y z : K, ¬(x = 0 ∧ z = 0) ∧ y ^ 2 = g * x ^ 4 - 2 * c * x ^ 2 * z ^ 2 + g' * z ^ 4

/-- the classes at all places are a union of cosets of the group of the everywhere locally soluble `g` -/
theorem LocClass.shift {c d1 d2 : ℤ} {q1 q2 q3 : Q} (h : Par c d1 d2 q1 q2 q3) {d3 g g' : ℤ} (h3 : d3 ≠ 0)
    (hg : g * g' = c ^ 2 - 4 * d1 * d2) (hl : Ev (KHom c g g')) (hc : LocClass q1 q3 d3) : LocClass q1 q3 (d3 * g) := by
  refine Ev.imp2 (fun K _ _ hK hcK => ?_) hl hc
  obtain ⟨x, y, z, h0, he⟩ := hK
  have := (kpar1 h.par K).shift two_ne_zero (by exact_mod_cast h.hD) (by exact_mod_cast h.h1) (by exact_mod_cast h.h2)
    (δ := (d3 : K)) (g := (g : K)) (g' := (g' : K)) (by exact_mod_cast h3) (by exact_mod_cast hg) h0 he hcK
  unfold KClass
  push_cast
  exact this

theorem LocClass.shift_prod {c d1 d2 : ℤ} {q1 q2 q3 : Q} (h : Par c d1 d2 q1 q2 q3) {l : List ℤ}
    (hl : ∀ g ∈ l, ∃ g', g * g' = c ^ 2 - 4 * d1 * d2 ∧ Ev (KHom c g g')) {d3 : ℤ} (h3 : d3 ≠ 0)
    (hc : LocClass q1 q3 d3) : LocClass q1 q3 (d3 * l.prod) := by
  induction l generalizing d3 with
  | nil => simpa using hc
  | cons g l ih =>
    obtain ⟨g', e, hE⟩ := hl g List.mem_cons_self
    have hg0 : g ≠ 0 := fun h0 => h.hD (by rw [← e, h0, zero_mul])
    rw [List.prod_cons, ← mul_assoc]
    exact ih (fun x hx => hl x (List.mem_cons_of_mem _ hx)) (mul_ne_zero h3 hg0) (hc.shift h h3 e hE)

/-- the class counts modulo squares -/
theorem LocClass.of_sq {q1 q3 : Q} {m m0 : ℤ} (hm : m ≠ 0) (hm0 : m0 ≠ 0) (hs : IsSquare (m * m0)) (hc : LocClass q1 q3 m) :
    LocClass q1 q3 m0 := by
  obtain ⟨w, hw⟩ := hs
  have hw0 : w ≠ 0 := by
    rintro rfl
    exact mul_ne_zero hm hm0 (by rw [hw, zero_mul])
  refine Ev.imp (fun K _ _ hK => ?_) hc
  have c1 := congrArg (Int.cast : ℤ → K) hw
  have hm' : (m : K) ≠ 0 := by exact_mod_cast hm
  have hw' : (w : K) ≠ 0 := by exact_mod_cast hw0
  have := Cls.mul_sq (r := (w : K) / m) (div_ne_zero hw' hm') hK
  unfold KClass
  have e : (m : K) * ((w : K) / m) ^ 2 = m0 := by
    push_cast at c1
    field_simp
    linear_combination -c1
  rwa [e] at this

/-- `desc2`: the answer -1 implies that the homogeneous space has no rational point, provided that the numbers `bgens` are
everywhere locally soluble for the other curve and every number of the support is, modulo these and squares, a number which
is not excluded by the mask. -/
theorem C95_no_points (X : XGcd) (S : SqrRootMod) (L : DLib) (hL : L.Ok) (c d1 d2 : ℤ) (plist ps bgens : List ℤ)
    (mask : ℕ) (so ad : Bool) (h : DHyp c d1 d2 plist (suppOf true ps) bgens) (hb : Base ps)
    (hps : ∀ p, 0 < p → Prime p → p ∣ c ^ 2 - 4 * d1 * d2 →
      p ∈ ps ∨ (p = 2 ∧ 16 ∣ c ^ 2 - 4 * d1 * d2 ∧ ¬ 32 ∣ c ^ 2 - 4 * d1 * d2))
    (hbg : ∀ g ∈ bgens, ∃ g', g * g' = c ^ 2 - 4 * d1 * d2 ∧ Ev (KHom c g g'))
    (hcov : Covered (suppOf true ps) bgens mask)
    (hr : desc2 X S L c d1 d2 plist (suppOf true ps) bgens mask so ad = .noPoints) :
    ¬ ∃ x y z : ℤ, y ^ 2 = d1 * x ^ 4 + c * x ^ 2 * z ^ 2 + d2 * z ^ 4 ∧ ¬ (x = 0 ∧ z = 0) := by
  rintro ⟨x, y, z, he, hne⟩
  rcases (C95_desc2 X S L hL c d1 d2 plist _ bgens mask so ad h).2.2 hr with h1 | ⟨q1, q2, q3, hp, h1⟩
  · refine h1 ⟨x ^ 2, y, z ^ 2, by linear_combination -he, fun h0 => hne ?_⟩
    exact ⟨pow_eq_zero_iff two_ne_zero |>.mp h0.1, pow_eq_zero_iff two_ne_zero |>.mp h0.2.2⟩
  · obtain ⟨g, u, v, hg, rfl, rfl, hco⟩ := exists_prim hne
    have e2 : (g ^ 2) ^ 2 * (d1 * u ^ 4 + c * u ^ 2 * v ^ 2 + d2 * v ^ 4) = y ^ 2 := by rw [he]; ring
    obtain ⟨w, hw⟩ := sq_of_mul_sq (pow_ne_zero 2 hg) e2
    have P := Par.of h.h1 h.h2 h.hD hp
    obtain ⟨d3, hsf, hdv, hcl⟩ := exists_class P ⟨hw.symm, hco⟩
    have hcl := hcl.loc
    have hlen : ps.length ≤ 30 := by
      have := h.slen
      simp only [suppOf, if_true, List.length_cons] at this
      omega
    have hlen2 : (suppOf true ps).length ≤ 31 := by have := h.slen; omega
    -- the square-free numbers with support in ps are examined
    have idx : ∀ n : ℤ, Squarefree n → (∀ q, Prime q → 0 < q → q ∣ n → q ∈ ps) →
        ∃ i < 2 ^ (suppOf true ps).length, makenum (suppOf true ps) i = some n := by
      intro n hn hq
      obtain ⟨i, hi⟩ := (Sqf.C60_roundtrip_partial ps hb hlen).2 n 1 one_ne_zero hn hq
      obtain ⟨i', n0, h1, h2, -, -, h3⟩ := Sqf.C60_makeindex_partial true ps hb hlen2 (n * 1 ^ 2) (by simpa using hn.ne_zero)
      rw [hi] at h1
      simp only [Option.some.injEq, Prod.mk.injEq] at h1
      obtain ⟨rfl, rfl⟩ := h1
      exact ⟨i, h2, h3⟩
    have nz : ∀ i m, makenum (suppOf true ps) i = some m → m ≠ 0 := by
      intro i m hm
      have hs : ∀ x ∈ suppOf true ps, Squarefree x ∧ Supp plist x := by
        intro x hx
        rcases h.sp x hx with rfl | hxp
        · exact ⟨IsUnit.squarefree isUnit_neg_one,
            fun p _ hp hd => absurd (isUnit_of_dvd_unit hd isUnit_neg_one) hp.not_isUnit⟩
        · obtain ⟨x0, xp⟩ := h.pr x hxp
          refine ⟨xp.squarefree, fun p h0 hp hd => ?_⟩
          rcases Int.associated_iff.mp (hp.associated_of_dvd xp hd) with h | h
          · rw [h]; exact hxp
          · omega
      obtain ⟨x, e, sq, -⟩ := makenum_ok (pl := plist) i (suppOf true ps) hs 0 (by omega) 1 ⟨squarefree_one, supp_one _⟩
      rw [← Option.some.inj (e.symm.trans hm)]
      exact sq.ne_zero
    have prd : ∀ l : List ℤ, (∀ g ∈ l, g ∈ bgens) → l.prod ≠ 0 := by
      intro l hl
      rw [Ne, List.prod_eq_zero_iff]
      intro h0
      obtain ⟨g', e, -⟩ := hbg 0 (hl 0 h0)
      exact h.hD (by rw [← e, zero_mul])
    by_cases hin : ∀ q, Prime q → 0 < q → q ∣ d3 → q ∈ ps
    · obtain ⟨i, hi, hm⟩ := idx d3 hsf hin
      obtain ⟨i0, j1, j2, m0, j3, l, j4, j5⟩ := hcov i hi d3 hm
      refine (h1 i0 j1 j2 m0 j3).1 ?_
      exact (hcl.shift_prod P (fun g hg => hbg g (j4 g hg)) hsf.ne_zero).of_sq (mul_ne_zero hsf.ne_zero (prd l j4)) (nz _ _ j3) j5
    · push Not at hin
      obtain ⟨q, hq, q0, hqd, hqn⟩ := hin
      obtain ⟨rfl, h16, h32⟩ := (hps q q0 hq (hqd.trans hdv)).resolve_left hqn
      obtain ⟨e3, rfl⟩ := hqd
      have hsf3 : Squarefree e3 := hsf.squarefree_of_dvd (Dvd.intro_left 2 rfl)
      obtain ⟨i, hi, hm⟩ := idx e3 hsf3 (fun q hq q0 hqd => by
        rcases hps q q0 hq ((hqd.trans (Dvd.intro_left 2 rfl)).trans hdv) with h | ⟨rfl, -⟩
        · exact h
        · exact absurd (hsf 2 (mul_dvd_mul_left 2 hqd)) Int.prime_two.not_isUnit)
      obtain ⟨i0, j1, j2, m0, j3, l, j4, j5⟩ := hcov i hi e3 hm
      refine (h1 i0 j1 j2 m0 j3).2 ⟨h16, h32, ?_⟩ ?_
      · simp only [suppOf, if_true, List.mem_cons, not_or]
        exact ⟨by norm_num, hqn⟩
      · refine (hcl.shift_prod P (fun g hg => hbg g (j4 g hg)) hsf.ne_zero).of_sq (mul_ne_zero hsf.ne_zero (prd l j4))
          (mul_ne_zero two_ne_zero (nz _ _ j3)) ?_
        obtain ⟨w, hw⟩ := j5
        exact ⟨2 * w, by linear_combination 4 * hw⟩

/-- without a mask everything is covered -/
theorem covered_zero (supp bgens : List ℤ) : Covered supp bgens 0 := fun i hi m hm =>
  ⟨i, hi, Nat.and_zero i, m, hm, [], by simp, ⟨m, by simp⟩⟩

/-! ## a case -/

theorem dhyp_ex : DHyp 0 2 (-1) [2] (suppOf true [2]) [] where
  h1 := by
    rintro ⟨r, hr⟩
    have h1 : r ≤ 1 := by nlinarith
    have h2 : -1 ≤ r := by nlinarith
    interval_cases r <;> omega
  h2 := by
    rintro ⟨r, hr⟩
    nlinarith [mul_self_nonneg r]
  hD := by norm_num
  pr := by
    intro p hp
    rw [List.mem_singleton] at hp
    subst hp
    exact ⟨two_pos, Int.prime_two⟩
  sorted := by simp
  all := by
    intro p h0 hp hd
    have h1 : p ∣ 2 ^ 5 := by
      have : (2 : ℤ) * 2 * (-1) * (0 ^ 2 - 4 * 2 * (-1)) = -2 ^ 5 := by norm_num
      rw [this] at hd
      exact (dvd_neg).mp hd
    have h2 := hp.dvd_of_dvd_pow h1
    rcases Int.associated_iff.mp (hp.associated_of_dvd Int.prime_two h2) with h | h
    · simp [h]
    · omega
  sp := by decide
  slen := by decide
  bg := by simp
  blen := by decide

/-- `2x⁴ - z⁴ = y²` -/
example : desc2 xgcd0 sqr0 lib0 0 2 (-1) [2] (suppOf true [2]) [] 0 false false = .point 1 1 1 := by decide +kernel

example : HPoint 0 2 (-1) 1 1 1 :=
  (C95_desc2 xgcd0 sqr0 lib0 lib0_ok 0 2 (-1) [2] (suppOf true [2]) [] 0 false false dhyp_ex).2.1 1 1 1 (by decide +kernel)

/-- `-x⁴ - 2z⁴ = y²` -/
example : desc2 xgcd0 sqr0 lib0 0 (-1) (-2) [2] (suppOf true [2]) [] 0 false false = .noPoints := by decide +kernel

end Eclib.Desc2
