import Verif.Newf.Model
import Verif.Hom.Heil

/-!
# C106: the eigenvalues a_p computed from a dual eigenvector
-/

set_option linter.unusedSectionVars false

namespace Eclib.Newf

open Ratl (R)
open Symb (Symbdata)
open Symb.SymbSpec Symb.CuspSpec Hom Hom.ManinSpec
open Svec (T SV)
open Smat.Props (SRep)
open Elim (RrefOk SparseOk)

namespace NewfSpec

/-- the list `bas` contains the values of `φ` at the generators: the projected coordinate of every M-symbol is its value -/
def Carries {K : Type*} [Field K] (N : ℤ) (H : Space) (bas : List ℤ) (φ : ℤ → ℤ → K) : Prop :=
  ∀ c d : ℤ, Unimod N c d → ∃ v, nfCd H bas c d = some v ∧ (v : K) = φ c d

/-- the modular symbol `f` is an eigenvector of the Hecke operator `T_p` with eigenvalue `a` -/
def IsEigen {K : Type*} [Field K] (p : ℕ) (f : OnePoint ℚ → OnePoint ℚ → K) (a : K) : Prop := ∀ α β, heckeT p f α β = a * f α β

end NewfSpec

open NewfSpec

section

variable {K : Type*} [Field K] {N pf : ℤ} {f : OnePoint ℚ → OnePoint ℚ → K} {φ : ℤ → ℤ → K} {H : Space} {bas : List ℤ}

theorem nfSum_spec (hc : Carries N H bas φ) {l : List (ℤ × ℤ)} (hl : ∀ s ∈ l, Unimod N s.1 s.2) :
    ∃ v, nfSum H bas l = some v ∧ (v : K) = lsum φ l := by
  have key : ∀ (l : List (ℤ × ℤ)) (a : ℤ), (∀ s ∈ l, Unimod N s.1 s.2) →
      ∃ v, l.foldlM (fun a s => (nfCd H bas s.1 s.2).map fun x => a + x) a = some v ∧ (v : K) = a + lsum φ l := by
    intro l
    induction l with
    | nil => intro a _; exact ⟨a, rfl, by simp [lsum]⟩
    | cons s l ih =>
      intro a hl
      obtain ⟨x, e1, e2⟩ := hc _ _ (hl s List.mem_cons_self)
      obtain ⟨v, e3, e4⟩ := ih (a + x) fun s hs => hl s (List.mem_cons_of_mem _ hs)
      refine ⟨v, ?_, ?_⟩
      · rw [List.foldlM_cons, e1]
        exact e3
      · rw [e4, lsum_cons, ← e2]
        push_cast
        ring
  obtain ⟨v, h1, h2⟩ := key l 0 hl
  exact ⟨v, h1, by rw [h2]; simp⟩

theorem nfRat_spec (hf : IsModSym N pf f) (hA : Assoc f φ) (hc : Carries N H bas φ) {nn dd : ℤ} (h : nn ≠ 0 ∨ dd ≠ 0) :
    ∃ v, nfRat H bas nn dd = some v ∧ (v : K) = f (cusp 0 1) (cusp nn dd) := by
  obtain ⟨h1, h2⟩ := addRat_list hf hA h
  obtain ⟨v, e1, e2⟩ := nfSum_spec hc (l := (0, 1) :: cf 0 1 nn dd) fun s hs => by
    obtain ⟨x, y, h3⟩ := h2 s hs
    exact unimod_of_det h3
  exact ⟨v, e1, e2.trans h1⟩

/-- the action from the right -/
def pairOf (u v : ℤ) (M : M22) : ℤ × ℤ := (M.a * u + M.c * v, M.b * u + M.d * v)

theorem apLoop_eq (u v : ℤ) (n : ℕ) : ∀ x1 x2 y1 y2 a b : ℤ, b.natAbs < n →
    apLoop (x1 * u + y1 * v) (x2 * u + y2 * v) a b = (heilLoop x1 x2 y1 y2 a b).map (pairOf u v) := by
  induction n with
  | zero => intro x1 x2 y1 y2 a b h; omega
  | succ n ih =>
    intro x1 x2 y1 y2 a b h
    unfold apLoop heilLoop
    by_cases hb : b = 0
    · rw [dif_pos hb, dif_pos hb]; rfl
    · rw [dif_neg hb, dif_neg hb]
      have hlt := natAbs_mod_lt a hb
      set c := Arith.mod a b
      set q := (a - c).tdiv b
      have hu : (if q = 1 then x2 * u + y2 * v - (x1 * u + y1 * v) else q * (x2 * u + y2 * v) - (x1 * u + y1 * v)) =
          (q * x2 - x1) * u + (q * y2 - y1) * v := by
        split_ifs with h1
        · rw [h1]; ring
        · ring
      simp only
      rw [hu, ih x2 (q * x2 - x1) y2 (q * y2 - y1) (-b) c (by omega)]
      rfl

/-- the pairs are those of the Heilbronn matrices of the default case -/
theorem apPairs_eq (p u v : ℤ) : apPairs p u v = (heilDefault p).map (pairOf u v) := by
  have key : ∀ (sg : Bool) (k : ℕ), (let b : ℤ := if sg then -(k + 1 : ℕ) else (k + 1 : ℕ)
      (u * p, v - u * b) :: apLoop (u * p) (v - u * b) (-p) b) =
      ((⟨p, -(if sg then -1 else 1) * (k + 1 : ℕ), 0, 1⟩ : M22) ::
        heilLoop p (-(if sg then -1 else 1) * (k + 1 : ℕ)) 0 1 (-p) ((if sg then -1 else 1) * (k + 1 : ℕ))).map (pairOf u v) := by
    intro sg k
    rw [List.map_cons, ← apLoop_eq u v _ _ _ _ _ _ _ (Nat.lt_succ_self _)]
    have e1 : u * p = p * u + 0 * v := by ring
    cases sg
    · simp only [Bool.false_eq_true, if_false, pairOf, one_mul, neg_one_mul, zero_mul, add_zero]
      have e2 : v - u * ((k + 1 : ℕ) : ℤ) = -((k + 1 : ℕ) : ℤ) * u + v := by ring
      rw [e2, mul_comm u p]
    · simp only [if_true, pairOf, one_mul, neg_one_mul, zero_mul, add_zero, neg_neg]
      have e2 : v - u * -((k + 1 : ℕ) : ℤ) = ((k + 1 : ℕ) : ℤ) * u + v := by ring
      rw [e2, mul_comm u p]
  unfold apPairs heilDefault
  rw [List.map_append]
  congr 1
  · simp [pairOf]
  · simp only [List.flatMap_cons, List.flatMap_nil, List.append_nil, List.map_append, List.map_flatMap]
    congr 1
    · exact congrArg List.flatten (List.map_congr_left fun k _ => by simpa using key false k)
    · exact congrArg List.flatten (List.map_congr_left fun k _ => by simpa using key true k)

/-- the sum computed by `apvec` for the symbol `s` is the value of `T_p f` -/
theorem image_value (hN : 1 < N) (hf : IsModSym N pf f) (hφ : IsManin N pf φ) (hA : Assoc f φ) (hc : Carries N H bas φ) {p : ℕ}
    (hp : p.Prime) (hp2 : p ≠ 2) (hpN : ¬(p : ℤ) ∣ N) {s : ℤ × ℤ} (hs : Unimod N s.1 s.2) :
    ∃ v, nfSum H bas (apPairs p s.1 s.2) = some v ∧ (v : K) = heckeT p f (rc (modsym s).1) (rc (modsym s).2) := by
  have : Fact p.Prime := ⟨hp⟩
  have hN0 : (0 : ℤ) < N := by omega
  have hcop : IsCoprime (p : ℤ) N := (Prime.coprime_iff_not_dvd (Nat.prime_iff_prime_int.1 hp)).2 hpN
  have hL := heilDefault_isHeil (p := p) (hp.eq_two_or_odd.resolve_left hp2)
  have hdet := heil_det hL
  obtain ⟨v, e1, e2⟩ := nfSum_spec hc (l := apPairs p s.1 s.2) (by
    intro t ht
    rw [apPairs_eq] at ht
    obtain ⟨M, hM, rfl⟩ := List.mem_map.1 ht
    exact unimod_det hs (hdet M hM) hcop)
  refine ⟨v, e1, e2.trans ?_⟩
  obtain ⟨φ', hφ', hA'⟩ := exists_manin hN0 (heckeT_isModSym hf hcop)
  rw [← (modsym_spec hφ' hA' hN hs).2.2]
  obtain ⟨a, b, c, d, hd, k1, k2⟩ := exists_matrix hN0 hs
  have hcop1 : IsCoprime (1 : ℤ) N := isCoprime_one_left
  have he : Equiv N s.1 s.2 c d := ⟨1, hcop1, by simpa using k1, by simpa using k2⟩
  rw [hφ'.equiv hs he, hA' a b c d hd, ← heil_sum hf hφ hA hcop hL hd, apPairs_eq]
  unfold lsum msum
  rw [List.map_map]
  congr 1
  refine List.map_congr_left fun M hM => ?_
  exact hφ.equiv (unimod_det hs (hdet M hM) hcop) (Symb.Props.Equiv.apply he M.a M.c M.b M.d)

end

namespace NewfSpec

/-- what `apvec` relies on for one form, with values in the rational numbers: the list of coordinates carries a modular symbol `f`
which is an eigenvector of `T_p` with eigenvalue `a`, within the bound of Hasse; `j0` is the number of a free generator; times the
content the value there is the denominator times `fac`, not zero; the content divides the denominator -/
structure FormOk (N pf : ℤ) (H : Space) (denom : ℤ) (p : ℕ) (F : NF) (a : ℤ) : Prop where
  eig : ∃ (f : OnePoint ℚ → OnePoint ℚ → ℚ) (φ : ℤ → ℤ → ℚ), IsModSym N pf f ∧ IsManin N pf φ ∧ Assoc f φ ∧ Carries N H F.coords φ ∧
    IsEigen p f a
  hasse : a ^ 2 ≤ 4 * p
  j0 : 0 < F.j0
  gen : ∃ i s v, H.free[F.j0 - 1]? = some i ∧ H.S.symbol i = some s ∧ Unimod N s.1 s.2 ∧ nfCd H F.coords s.1 s.2 = some v ∧
    v * F.cont = denom * F.fac
  fac : F.fac ≠ 0
  cont : F.cont ∣ denom

end NewfSpec

theorem recover_spec {denom a v : ℤ} {F : NF} (hden : denom ≠ 0) (g5 : v * F.cont = denom * F.fac) (hfac : F.fac ≠ 0) (hcont : F.cont ∣ denom) :
    recover denom (a * v) F = some a := by
  obtain ⟨e, he'⟩ := hcont
  have hc0 : F.cont ≠ 0 := by
    intro h0
    rw [h0, zero_mul] at he'
    exact hden he'
  have hve : v = e * F.fac := by
    rw [he'] at g5
    exact mul_left_cancel₀ hc0 (by linear_combination g5)
  unfold recover
  rw [if_neg (by push Not; exact ⟨hfac, hden⟩), hve, ← mul_assoc, Int.mul_tdiv_cancel _ hfac, mul_assoc, mul_comm e, ← he',
    Int.mul_tdiv_cancel _ hden]

theorem image_spec {N pf : ℤ} {H : Space} {denom : ℤ} {p : ℕ} {F : NF} {a : ℤ} (hN : 1 < N) (hden : denom ≠ 0)
    (h : FormOk N pf H denom p F a) (hp : p.Prime) (hp2 : p ≠ 2) (hpN : ¬(p : ℤ) ∣ N) :
    ∃ img, image H p F = some img ∧ recover denom img F = some a := by
  obtain ⟨f, φ, hf, hφ, hA, hc, he⟩ := h.eig
  obtain ⟨i, s, v, g1, g2, g3, g4, g5⟩ := h.gen
  obtain ⟨img, e1, e2⟩ := image_value hN hf hφ hA hc hp hp2 hpN g3
  refine ⟨img, ?_, ?_⟩
  · unfold image
    rw [if_neg h.j0.ne', g1, Option.bind_some, g2, Option.bind_some, e1]
  · have hv : (v : ℚ) = φ s.1 s.2 := by
      obtain ⟨v', k1, k2⟩ := hc _ _ g3
      rw [g4] at k1
      obtain rfl := Option.some.inj k1
      exact k2
    rw [he, ← (modsym_spec hφ hA hN g3).2.2, ← hv] at e2
    have e3 : img = a * v := by exact_mod_cast e2
    rw [e3]
    exact recover_spec hden g5 h.fac h.cont

/-- the components of the vectors which are added are at most `B` -/
theorem nfCd_bound {H : Space} {bas : List ℤ} {B : ℤ} (hB : ∀ x ∈ bas, |x| ≤ B) (hB0 : 0 ≤ B) {c d v : ℤ} (h : nfCd H bas c d = some v) : |v| ≤ B := by
  unfold nfCd nfIndex at h
  obtain ⟨k, -, h⟩ := Option.bind_eq_some_iff.1 h
  obtain ⟨i, -, h⟩ := Option.bind_eq_some_iff.1 h
  split_ifs at h with h1 h2
  · exact hB _ (List.mem_of_getElem? h)
  · obtain ⟨x, e, rfl⟩ := Option.map_eq_some_iff.1 h
    rw [abs_neg]
    exact hB _ (List.mem_of_getElem? e)
  · rw [← Option.some.inj h, abs_zero]
    exact hB0

theorem nfSum_bound {H : Space} {bas : List ℤ} {B : ℤ} (hB : ∀ x ∈ bas, |x| ≤ B) (hB0 : 0 ≤ B) {l : List (ℤ × ℤ)} {v : ℤ}
    (h : nfSum H bas l = some v) : |v| ≤ l.length * B := by
  have key : ∀ (l : List (ℤ × ℤ)) (a v : ℤ), l.foldlM (fun a s => (nfCd H bas s.1 s.2).map fun x => a + x) a = some v →
      |v| ≤ |a| + l.length * B := by
    intro l
    induction l with
    | nil => intro a v h; simp at h; simp [h]
    | cons s l ih =>
      intro a v h
      rw [List.foldlM_cons] at h
      obtain ⟨y, e, h⟩ := Option.bind_eq_some_iff.1 h
      obtain ⟨x, e', rfl⟩ := Option.map_eq_some_iff.1 e
      have h1 := ih _ _ h
      have h2 := nfCd_bound hB hB0 e'
      have h3 := abs_add_le a x
      rw [List.length_cons]
      push_cast
      linarith
  simpa using key l 0 v h

namespace NewfSpec

/-- the same with values modulo the prime `q`: the form is an eigenvector modulo `q`, and the coordinates, at most `B`, are small in
comparison with `q` -/
structure FormOkMod (q : ℕ) [Fact q.Prime] (N pf : ℤ) (H : Space) (denom : ℤ) (p : ℕ) (F : NF) (a : ℤ) : Prop where
  eig : ∃ (f : OnePoint ℚ → OnePoint ℚ → ZMod q) (φ : ℤ → ℤ → ZMod q), IsModSym N pf f ∧ IsManin N pf φ ∧ Assoc f φ ∧
    Carries N H F.coords φ ∧ IsEigen p f (a : ZMod q)
  small : ∃ B : ℤ, 0 ≤ B ∧ (∀ x ∈ F.coords, |x| ≤ B) ∧ ((heilDefault p).length + |a|) * B < q
  hasse : a ^ 2 ≤ 4 * p
  j0 : 0 < F.j0
  gen : ∃ i s v, H.free[F.j0 - 1]? = some i ∧ H.S.symbol i = some s ∧ Unimod N s.1 s.2 ∧ nfCd H F.coords s.1 s.2 = some v ∧
    v * F.cont = denom * F.fac
  fac : F.fac ≠ 0
  cont : F.cont ∣ denom

end NewfSpec

theorem image_spec_mod {q : ℕ} [Fact q.Prime] {N pf : ℤ} {H : Space} {denom : ℤ} {p : ℕ} {F : NF} {a : ℤ} (hN : 1 < N) (hden : denom ≠ 0)
    (h : FormOkMod q N pf H denom p F a) (hp : p.Prime) (hp2 : p ≠ 2) (hpN : ¬(p : ℤ) ∣ N) :
    ∃ img, image H p F = some img ∧ recover denom img F = some a := by
  obtain ⟨f, φ, hf, hφ, hA, hc, he⟩ := h.eig
  obtain ⟨i, s, v, g1, g2, g3, g4, g5⟩ := h.gen
  obtain ⟨img, e1, e2⟩ := image_value hN hf hφ hA hc hp hp2 hpN g3
  refine ⟨img, ?_, ?_⟩
  · unfold image
    rw [if_neg h.j0.ne', g1, Option.bind_some, g2, Option.bind_some, e1]
  · have hv : (v : ZMod q) = φ s.1 s.2 := by
      obtain ⟨v', k1, k2⟩ := hc _ _ g3
      rw [g4] at k1
      obtain rfl := Option.some.inj k1
      exact k2
    rw [he, ← (modsym_spec hφ hA hN g3).2.2, ← hv] at e2
    have e3 : img = a * v := by
      obtain ⟨B, hB0, hB, hq⟩ := h.small
      have h1 := nfSum_bound hB hB0 e1
      rw [apPairs_eq, List.length_map] at h1
      have h2 := nfCd_bound hB hB0 g4
      have h3 : |img - a * v| < q := by
        refine lt_of_le_of_lt ((abs_sub _ _).trans ?_) hq
        rw [abs_mul, add_mul]
        exact add_le_add h1 (mul_le_mul_of_nonneg_left h2 (abs_nonneg _))
      have h4 : (q : ℤ) ∣ img - a * v := (ZMod.intCast_zmod_eq_zero_iff_dvd _ _).1 (by push_cast; rw [e2, sub_self])
      exact sub_eq_zero.1 (Int.eq_zero_of_abs_lt_dvd h4 h3)
    rw [e3]
    exact recover_spec hden g5 h.fac h.cont

theorem abs_le_sqrt {a : ℤ} {p : ℕ} (h : a ^ 2 ≤ 4 * p) : ¬(a > (Nat.sqrt (4 * p) : ℤ) ∨ -a > (Nat.sqrt (4 * p) : ℤ)) := by
  have hb : |a| ≤ (Nat.sqrt (4 * p) : ℤ) := by
    rw [Int.abs_eq_natAbs]
    have : a.natAbs * a.natAbs ≤ 4 * p := by
      zify
      rw [← sq, sq_abs]
      exact h
    exact_mod_cast Nat.le_sqrt.2 this
  rw [abs_le] at hb
  omega

theorem apvec_of {N : ℤ} {H : Space} (hlev : H.S.N = N) {denom : ℤ} {p : ℕ} (hpN : ¬(p : ℤ) ∣ N) {fs : List NF} {as : List ℤ}
    (h : List.Forall₂ (fun F a => (∃ img, image H p F = some img ∧ recover denom img F = some a) ∧ a ^ 2 ≤ 4 * (p : ℤ)) fs as) (ps : List ℤ) :
    apvec H denom ps p fs = some as := by
  unfold apvec
  rw [if_neg (fun h0 => hpN (by rw [hlev] at h0; exact Int.dvd_of_tmod_eq_zero h0)), Int.toNat_natCast]
  have key : ∃ imgs, fs.mapM (image H p) = some imgs ∧ recoverAll denom (Nat.sqrt (4 * p)) (fs.zip imgs) = some as := by
    induction h with
    | nil => exact ⟨[], rfl, rfl⟩
    | @cons F a fs as h1 _ ih =>
      obtain ⟨imgs, e1, e2⟩ := ih
      obtain ⟨⟨img, e3, e4⟩, hh⟩ := h1
      refine ⟨img :: imgs, ?_, ?_⟩
      · rw [List.mapM_cons, e3, e1]; rfl
      · rw [List.zip_cons_cons, recoverAll, e4, Option.bind_some, if_neg (abs_le_sqrt hh), e2]
        rfl
  obtain ⟨imgs, e1, e2⟩ := key
  rw [e1, Option.bind_some, e2]

/-- **C106** (part).  `apvec(p)` for an odd prime `p` not dividing the level returns the eigenvalues of `T_p`.  The full statement is
for all primes not dividing the level; for `p = 2` it is false, see `C106_apvec_two`. -/
theorem C106_apvec_partial {N pf : ℤ} {H : Space} (hN : 1 < N) (hlev : H.S.N = N) {denom : ℤ} (hden : denom ≠ 0) {p : ℕ} (hp : p.Prime)
    (hp2 : p ≠ 2) (hpN : ¬(p : ℤ) ∣ N) {fs : List NF} {as : List ℤ} (h : List.Forall₂ (FormOk N pf H denom p) fs as) (ps : List ℤ) :
    apvec H denom ps p fs = some as :=
  apvec_of hlev hpN (h.imp fun _ _ h1 => ⟨image_spec hN hden h1 hp hp2 hpN, h1.hasse⟩) ps

/-- **C106** (part).  The same for eigenvectors modulo a prime `q` which is large in comparison with the coordinates. -/
theorem C106_apvec_mod_partial {q : ℕ} [Fact q.Prime] {N pf : ℤ} {H : Space} (hN : 1 < N) (hlev : H.S.N = N) {denom : ℤ} (hden : denom ≠ 0)
    {p : ℕ} (hp : p.Prime) (hp2 : p ≠ 2) (hpN : ¬(p : ℤ) ∣ N) {fs : List NF} {as : List ℤ}
    (h : List.Forall₂ (FormOkMod q N pf H denom p) fs as) (ps : List ℤ) : apvec H denom ps p fs = some as :=
  apvec_of hlev hpN (h.imp fun _ _ h1 => ⟨image_spec_mod hN hden h1 hp hp2 hpN, h1.hasse⟩) ps

/-- **C106** (bad primes).  For a prime dividing the level `apvec` returns 0 when the square divides the level, and minus the
eigenvalue of the Atkin-Lehner involution otherwise. -/
theorem C106_apvec_bad {H : Space} {p : ℤ} (hp : p ∣ H.S.N) {ps : List ℤ} (hps : p ∈ ps) (denom : ℤ) {fs : List NF}
    (h : ∀ F ∈ fs, F.aq.length = ps.length) :
    ∃ r, apvec H denom ps p fs = some r ∧ r.length = fs.length ∧
      ∀ (i : ℕ) (F : NF), fs[i]? = some F → (p * p ∣ H.S.N → r[i]? = some 0) ∧
        (¬p * p ∣ H.S.N → ∃ k : ℕ, ps[k]? = some p ∧ ∃ e, F.aq[k]? = some e ∧ r[i]? = some (-e)) := by
  unfold apvec
  rw [if_pos (Int.tmod_eq_zero_of_dvd hp)]
  by_cases h2 : p * p ∣ H.S.N
  · rw [if_pos (Int.tmod_eq_zero_of_dvd h2)]
    refine ⟨_, rfl, by simp, fun i F hF => ⟨fun _ => by rw [List.getElem?_map, hF]; rfl, fun h3 => absurd h2 h3⟩⟩
  · rw [if_neg (fun h3 => h2 (Int.dvd_of_tmod_eq_zero h3))]
    have hk : ps.idxOf p < ps.length := List.idxOf_lt_length_iff.2 hps
    have key : ∀ fs : List NF, (∀ F ∈ fs, F.aq.length = ps.length) →
        fs.mapM (fun f => (f.aq[ps.idxOf p]?).map fun x => -x) = some (fs.map fun F => -F.aq.getD (ps.idxOf p) 0) := by
      intro fs h
      induction fs with
      | nil => rfl
      | cons F fs ih =>
        have hF : ps.idxOf p < F.aq.length := by rw [h F List.mem_cons_self]; exact hk
        rw [List.mapM_cons, ih fun F hF => h F (List.mem_cons_of_mem _ hF), List.getElem?_eq_getElem hF]
        simp [hF]
    refine ⟨_, key fs h, by simp, fun i F hF => ⟨fun h3 => absurd h3 h2, fun _ => ⟨ps.idxOf p, ?_, F.aq.getD (ps.idxOf p) 0, ?_, ?_⟩⟩⟩
    · rw [List.getElem?_eq_getElem hk, List.getElem_idxOf]
    · have hF' : ps.idxOf p < F.aq.length := by rw [h F (List.mem_of_getElem? hF)]; exact hk
      rw [List.getElem?_eq_getElem hF', List.getD_eq_getElem _ _ hF']
    · rw [List.getElem?_map, hF]
      rfl

end Eclib.Newf
