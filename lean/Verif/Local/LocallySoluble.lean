import Verif.Local.LocSolProps
import Verif.Local.RealType
import Verif.Local.HilbertProd

/-! # `locallysoluble` (C62) -/

namespace Eclib.LocSol

open Eclib.Local (globalHilbert anyBad anyBad_spec SolAt Sol SolReal)

/-- the loop `std::all_of(plist, ...)` of `locallysoluble` (mlocsol.cc:203-204): the answer and
`badp`, the last prime looked at -/
def allSoluble (test : Int → Option Bool) : List Int → Int → Option (Bool × Int)
  | [], badp => some (true, badp)
  | p :: ps, _ =>
    match test p with
    | none => none
    | some false => some (false, p)
    | some true => allSoluble test ps p

/-- `locallysoluble(a,b,c,d,e,plist,badp)` (mlocsol.cc:188-205): the answer and the final value of
`badp`, which is `badp` at the call if nothing is stored.  `ss` stands for the method used for
primes from `1000` on. -/
def locallysoluble (ss : Int → Int → Int → Int → Int → Int → Option Bool) (fuel : Nat) (g : Forms.G)
    (plist : List Int) (badp : Int) : Option (Bool × Int) :=
  if !rsoluble g then some (false, 0)
  else
    let loop := allSoluble (newQpsoluble ss fuel g.a g.b g.c g.d g.e) plist
    if g.b = 0 ∧ g.d = 0 then
      match globalHilbert g.a (g.c * g.c - 4 * g.a * g.e) plist badp with
      | none => none
      | some (h, bp) => if h ≠ 0 then some (false, bp) else loop bp
    else loop badp

/-- `locallysoluble(a,c,e,plist,badp)` (mlocsol.cc:179-186): the check of the Hilbert symbol comes
first -/
def locallysolubleAce (ss : Int → Int → Int → Int → Int → Int → Option Bool) (fuel : Nat)
    (a c e : Int) (plist : List Int) (badp : Int) : Option (Bool × Int) :=
  match globalHilbert a (c * c - 4 * a * e) plist badp with
  | none => none
  | some (h, bp) =>
    if h ≠ 0 then some (false, bp) else locallysoluble ss fuel ⟨a, 0, c, 0, e⟩ plist bp

/-! ### specification -/

/-- `y^2 = g(x,z)` has a point over the completion at `q`: the real numbers if `q = 0`, the
`q`-adic numbers if `q` is a prime -/
def PointAt (g : Forms.G) (q : ℤ) : Prop :=
  (q = 0 → HasRealPoint g) ∧
    ∀ p : ℕ, ∀ hp : p.Prime, q = p → @HasPoint p ⟨hp⟩ g.a g.b g.c g.d g.e

theorem disc27_eq (g : Forms.G) : disc27 g.a g.b g.c g.d g.e = g.disc := by
  unfold disc27 Forms.G.disc Forms.G.II Forms.G.JJ
  ring

theorem pointAt_zero (g : Forms.G) : PointAt g 0 ↔ HasRealPoint g := by
  refine ⟨fun h => h.1 rfl, fun h => ⟨fun _ => h, fun p hp h0 => ?_⟩⟩
  exact absurd h0.symm (by exact_mod_cast hp.ne_zero)

theorem pointAt_prime (g : Forms.G) (p : ℕ) [hp : Fact p.Prime] :
    PointAt g p ↔ HasPoint p g.a g.b g.c g.d g.e := by
  refine ⟨fun h => h.2 p hp.out rfl, fun h => ⟨fun h0 => ?_, fun q hq h0 => ?_⟩⟩
  · exact absurd h0 (by exact_mod_cast hp.out.ne_zero)
  · have : p = q := by exact_mod_cast h0
    subst this
    exact h

/-- for a biquadratic form a local point gives a local zero of the ternary quadratic form -/
theorem hilbert_real {g : Forms.G} (hb : g.b = 0) (hd : g.d = 0) (ha : g.a ≠ 0) (h : HasRealPoint g) :
    SolReal g.a (g.c * g.c - 4 * g.a * g.e) := by
  obtain ⟨x, y, z, h0, h⟩ := h
  have ha' : (g.a : ℝ) ≠ 0 := by exact_mod_cast ha
  rw [hb, hd] at h
  refine ⟨2 * y, z ^ 2, 2 * g.a * x ^ 2 + g.c * z ^ 2, ?_, by
    push_cast at h ⊢; linear_combination 4 * (g.a : ℝ) * h⟩
  rintro ⟨-, h2, h3⟩
  have hz : z = 0 := by simpa using h2
  subst hz
  refine h0 ⟨?_, rfl⟩
  have : 2 * (g.a : ℝ) * x ^ 2 = 0 := by linear_combination h3
  simpa [ha'] using this

theorem hilbert_padic {p : ℕ} [hp : Fact p.Prime] {g : Forms.G} (hb : g.b = 0) (hd : g.d = 0)
    (ha : g.a ≠ 0) (h : HasPoint p g.a g.b g.c g.d g.e) : Sol p g.a (g.c * g.c - 4 * g.a * g.e) := by
  obtain ⟨x, y, z, h0, h⟩ := h
  have ha' : (g.a : ℚ_[p]) ≠ 0 := by exact_mod_cast ha
  rw [hb, hd] at h
  refine ⟨2 * y, z ^ 2, 2 * g.a * x ^ 2 + g.c * z ^ 2, ?_, by
    push_cast at h ⊢; linear_combination 4 * (g.a : ℚ_[p]) * h⟩
  rintro ⟨-, h2, h3⟩
  have hz : z = 0 := by simpa using h2
  subst hz
  refine h0 ⟨?_, rfl⟩
  have : 2 * (g.a : ℚ_[p]) * x ^ 2 = 0 := by linear_combination h3
  simpa [ha'] using this

theorem hilbert_at {g : Forms.G} {q : ℤ} (hb : g.b = 0) (hd : g.d = 0) (ha : g.a ≠ 0)
    (hq0 : 0 ≤ q) (h : PointAt g q) :
    SolAt q g.a (g.c * g.c - 4 * g.a * g.e) := by
  refine ⟨fun h1 => ?_, fun p hp h1 => ?_⟩
  · exact hilbert_real hb hd ha (h.1 (by omega))
  · have := Fact.mk hp
    exact hilbert_padic hb hd ha (h.2 p hp h1)

/-- the Hilbert check stops only at a place without points -/
theorem globalHilbert_bad {g : Forms.G} (hb : g.b = 0) (hd : g.d = 0) (hD : g.disc ≠ 0)
    {plist : List ℤ} (hpl : ∀ p ∈ plist, 0 ≤ p ∧ Prime p) (badp : ℤ) :
    ∃ h bp, globalHilbert g.a (g.c * g.c - 4 * g.a * g.e) plist badp = some (h, bp) ∧
      (h ≠ 0 → (bp = 0 ∨ bp ∈ plist) ∧ ¬ PointAt g bp) := by
  have ha : g.a ≠ 0 := by
    intro h
    apply hD
    unfold Forms.G.disc Forms.G.II Forms.G.JJ
    rw [hb, hd, h]
    ring
  have hb' : g.c * g.c - 4 * g.a * g.e ≠ 0 := by
    intro h
    apply hD
    unfold Forms.G.disc Forms.G.II Forms.G.JJ
    rw [hb, hd]
    linear_combination (432 * g.a * g.e * (g.c * g.c - 4 * g.a * g.e)) * h
  obtain ⟨k, e1, e2, e3⟩ := Eclib.Local.C45_real ha hb' (le_refl (0 : ℤ))
  have hno : ∀ q : ℤ, q = 0 ∨ (0 ≤ q ∧ Prime q) →
      Eclib.Local.localHilbert g.a (g.c * g.c - 4 * g.a * g.e) q ≠ some 0 → ¬ PointAt g q := by
    intro q hq hne hp
    apply hne
    refine (Eclib.Local.not_solAt_iff ha hb' ?_).mpr (hilbert_at hb hd ha ?_ hp)
    · rcases hq with rfl | hq
      · exact Or.inl le_rfl
      · exact Or.inr hq.2
    · rcases hq with rfl | hq
      · exact le_rfl
      · exact hq.1
  rcases e2 with rfl | rfl
  · obtain ⟨h, bp', f1, f2⟩ := anyBad_spec ha hb' plist badp (fun p hp => Or.inr (hpl p hp).2)
    refine ⟨h, bp', by simp only [globalHilbert, e1, f1], fun hne => ?_⟩
    rcases f2 with ⟨rfl, g2⟩ | ⟨rfl, g2, g3⟩
    · exact absurd rfl hne
    · exact ⟨Or.inr g2, hno _ (Or.inr (hpl _ g2)) (by rw [g3]; simp)⟩
  · exact ⟨1, 0, by simp only [globalHilbert, e1], fun _ => ⟨Or.inl rfl,
      hno 0 (Or.inl rfl) (by rw [e1]; simp)⟩⟩

/-- the loop over the primes -/
theorem allSoluble_spec (test : ℤ → Option Bool) (P : ℤ → Prop) (plist : List ℤ) (badp : ℤ)
    (h : ∀ p ∈ plist, ∃ r, test p = some r ∧ (r = true ↔ P p)) :
    ∃ r bp, allSoluble test plist badp = some (r, bp) ∧ (r = true ↔ ∀ p ∈ plist, P p) ∧
      (r = false → bp ∈ plist ∧ ¬ P bp) := by
  induction plist generalizing badp with
  | nil => exact ⟨true, badp, rfl, by simp, by simp⟩
  | cons p ps ih =>
    obtain ⟨r, h1, h2⟩ := h p (by simp)
    cases r with
    | false =>
      have hp : ¬ P p := by rw [← h2]; simp
      refine ⟨false, p, by simp only [allSoluble, h1], ?_, fun _ => ⟨by simp, hp⟩⟩
      simp only [Bool.false_eq_true, false_iff]
      intro h3
      exact hp (h3 p (by simp))
    | true =>
      have hp : P p := h2.mp rfl
      obtain ⟨r, bp, h3, h4, h5⟩ := ih p (fun q hq => h q (List.mem_cons_of_mem _ hq))
      refine ⟨r, bp, by simp only [allSoluble, h1]; exact h3, ?_, fun hr => ?_⟩
      · rw [h4]
        simp [hp]
      · exact ⟨List.mem_cons_of_mem _ (h5 hr).1, (h5 hr).2⟩

/-- `locallysoluble` with enough steps -/
theorem locallysoluble_bound (ss : ℤ → ℤ → ℤ → ℤ → ℤ → ℤ → Option Bool) (g : Forms.G) (plist : List ℤ)
    (badp : ℤ) (hD : g.disc ≠ 0) (hpl : ∀ p ∈ plist, 0 ≤ p ∧ Prime p)
    (hss : ∀ p ∈ plist, 1000 ≤ p → ∃ r, ss g.a g.b g.c g.d g.e p = some r ∧
      (r = true ↔ PointAt g p)) (fuel : ℕ) (hf : fuel ≥ g.disc.natAbs + 2) :
    ∃ r bp, locallysoluble ss fuel g plist badp = some (r, bp) ∧
      (r = true ↔ HasRealPoint g ∧ ∀ p ∈ plist, PointAt g p) ∧
      (r = false → (bp = 0 ∨ bp ∈ plist) ∧ ¬ PointAt g bp) := by
  have htest : ∀ p ∈ plist, ∃ r, newQpsoluble ss fuel g.a g.b g.c g.d g.e p = some r ∧
      (r = true ↔ PointAt g p) := by
    intro q hq
    unfold newQpsoluble crossOverP
    by_cases hlt : q < 1000
    · rw [if_pos hlt]
      obtain ⟨h0, hpr⟩ := hpl q hq
      lift q to ℕ using h0
      have : Fact q.Prime := ⟨Nat.prime_iff_prime_int.mpr hpr⟩
      rw [pointAt_prime]
      exact qpsoluble_bound g.a g.b g.c g.d g.e (by rwa [disc27_eq]) (by rwa [disc27_eq])
    · rw [if_neg hlt]
      exact hss q hq (by omega)
  have hloop := fun bp => allSoluble_spec _ _ plist bp htest
  unfold locallysoluble
  by_cases hr : rsoluble g = true
  · have hreal := (C61_rsoluble g hD).mp hr
    simp only [hr, Bool.not_true, Bool.false_eq_true, if_false]
    have fin : ∀ bp0, ∃ r bp, allSoluble (newQpsoluble ss fuel g.a g.b g.c g.d g.e) plist bp0 =
        some (r, bp) ∧ (r = true ↔ HasRealPoint g ∧ ∀ p ∈ plist, PointAt g p) ∧
        (r = false → (bp = 0 ∨ bp ∈ plist) ∧ ¬ PointAt g bp) := by
      intro bp0
      obtain ⟨r, bp, h1, h2, h3⟩ := hloop bp0
      exact ⟨r, bp, h1, by rw [h2]; simp [hreal], fun h => ⟨Or.inr (h3 h).1, (h3 h).2⟩⟩
    by_cases hbd : g.b = 0 ∧ g.d = 0
    · rw [if_pos hbd]
      obtain ⟨h, bp, h1, h2⟩ := globalHilbert_bad hbd.1 hbd.2 hD hpl badp
      rw [h1]
      simp only
      by_cases hh : h = 0
      · rw [if_neg (by simpa using hh)]
        exact fin bp
      · rw [if_pos hh]
        obtain ⟨h3, h4⟩ := h2 hh
        refine ⟨false, bp, rfl, ?_, fun _ => ⟨h3, h4⟩⟩
        simp only [Bool.false_eq_true, false_iff]
        rintro ⟨-, h5⟩
        rcases h3 with rfl | h3
        · exact h4 ((pointAt_zero g).mpr hreal)
        · exact h4 (h5 _ h3)
    · rw [if_neg hbd]
      exact fin badp
  · have hreal : ¬ HasRealPoint g := fun h => hr ((C61_rsoluble g hD).mpr h)
    have hr' : rsoluble g = false := by simpa using hr
    rw [hr']
    exact ⟨false, 0, rfl, by simp [hreal], fun _ => ⟨Or.inl rfl, by rwa [pointAt_zero]⟩⟩

/-- **C62**: for a quartic without a repeated factor and a list of primes, `locallysoluble` returns;
the answer is `1` exactly when there are points over the reals and over the `p`-adic numbers for
each `p` in the list; otherwise `badp` is `0` (the reals) or a prime of the list where there are
none.  For primes from `1000` on this depends on the other method being right (`hss`). -/
theorem C62_locallysoluble (ss : ℤ → ℤ → ℤ → ℤ → ℤ → ℤ → Option Bool) (g : Forms.G) (plist : List ℤ)
    (badp : ℤ) (hD : g.disc ≠ 0) (hpl : ∀ p ∈ plist, 0 ≤ p ∧ Prime p)
    (hss : ∀ p ∈ plist, 1000 ≤ p → ∃ r, ss g.a g.b g.c g.d g.e p = some r ∧
      (r = true ↔ PointAt g p)) :
    ∃ F, ∀ fuel ≥ F, ∃ r bp, locallysoluble ss fuel g plist badp = some (r, bp) ∧
      (r = true ↔ HasRealPoint g ∧ ∀ p ∈ plist, PointAt g p) ∧
      (r = false → (bp = 0 ∨ bp ∈ plist) ∧ ¬ PointAt g bp) :=
  ⟨g.disc.natAbs + 2, fun fuel hf => locallysoluble_bound ss g plist badp hD hpl hss fuel hf⟩

/-- **C62** for the version with three coefficients -/
theorem C62_ace (ss : ℤ → ℤ → ℤ → ℤ → ℤ → ℤ → Option Bool) (a c e : ℤ) (plist : List ℤ)
    (badp : ℤ) (hD : (⟨a, 0, c, 0, e⟩ : Forms.G).disc ≠ 0) (hpl : ∀ p ∈ plist, 0 ≤ p ∧ Prime p)
    (hss : ∀ p ∈ plist, 1000 ≤ p → ∃ r, ss a 0 c 0 e p = some r ∧
      (r = true ↔ PointAt ⟨a, 0, c, 0, e⟩ p)) :
    ∃ F, ∀ fuel ≥ F, ∃ r bp, locallysolubleAce ss fuel a c e plist badp = some (r, bp) ∧
      (r = true ↔ HasRealPoint ⟨a, 0, c, 0, e⟩ ∧ ∀ p ∈ plist, PointAt ⟨a, 0, c, 0, e⟩ p) ∧
      (r = false → (bp = 0 ∨ bp ∈ plist) ∧ ¬ PointAt ⟨a, 0, c, 0, e⟩ bp) := by
  obtain ⟨h, bp, h1, h2⟩ := globalHilbert_bad (g := ⟨a, 0, c, 0, e⟩) rfl rfl hD hpl badp
  simp only at h1
  unfold locallysolubleAce
  rw [h1]
  simp only
  by_cases hh : h = 0
  · simp only [ne_eq, hh, not_true_eq_false, if_false]
    exact C62_locallysoluble ss ⟨a, 0, c, 0, e⟩ plist bp hD hpl hss
  · simp only [ne_eq, hh, not_false_eq_true, if_true]
    obtain ⟨h3, h4⟩ := h2 hh
    refine ⟨0, fun fuel _ => ⟨false, bp, rfl, ?_, fun _ => ⟨h3, h4⟩⟩⟩
    simp only [Bool.false_eq_true, false_iff]
    rintro ⟨h6, h5⟩
    rcases h3 with rfl | h3
    · exact h4 ((pointAt_zero _).mpr h6)
    · exact h4 (h5 _ h3)

/-- the hypotheses are met, with no use of the other method: `2x^4 - 34z^4` with its bad primes
(`y^2 = 2x^4 - 34z^4` is soluble everywhere) -/
example : locallysoluble (fun _ _ _ _ _ _ => none) 9 ⟨2, 0, 0, 0, -34⟩ [2, 17] 99 =
    some (true, 17) := by decide +kernel

example : (⟨2, 0, 0, 0, -34⟩ : Forms.G).disc ≠ 0 ∧ ∀ p ∈ [(2 : ℤ), 17], 0 ≤ p ∧ Prime p ∧ ¬ 1000 ≤ p := by
  refine ⟨by decide, ?_⟩
  intro p hp
  rcases List.mem_cons.mp hp with rfl | hp
  · exact ⟨by norm_num, Int.prime_two, by norm_num⟩
  · rw [List.mem_singleton] at hp
    subst hp
    exact ⟨by norm_num, by
      have := Nat.prime_iff_prime_int.mp (show Nat.Prime 17 by norm_num); exact_mod_cast this,
      by norm_num⟩

end Eclib.LocSol
