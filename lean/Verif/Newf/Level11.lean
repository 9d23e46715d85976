import Verif.Newf.Examples

/-!
# C106, C107: the rational modular symbol of level 11 meets the hypotheses
-/

namespace Eclib.Newf

open Symb (Symbdata)
open Symb.SymbSpec Hom Hom.ManinSpec NewfSpec

section

variable {K : Type*} [Field K] {N pf : ℤ} {f g : OnePoint ℚ → OnePoint ℚ → K} {φ ψ : ℤ → ℤ → K}

/-- a modular symbol is determined by its values at M-symbols -/
theorem eq_of_assoc (hf : IsModSym N pf f) (hg : IsModSym N pf g) (hA : Assoc f φ) (hB : Assoc g ψ)
    (h : ∀ c d, Unimod N c d → φ c d = ψ c d) : f = g := by
  have h0 : ∀ nn dd : ℤ, nn ≠ 0 ∨ dd ≠ 0 → f (cusp 0 1) (cusp nn dd) = g (cusp 0 1) (cusp nn dd) := by
    intro nn dd hnd
    obtain ⟨h1, h2⟩ := addRat_list hf hA hnd
    obtain ⟨h3, -⟩ := addRat_list hg hB hnd
    rw [← h1, ← h3]
    unfold lsum
    congr 1
    refine List.map_congr_left fun s hs => ?_
    obtain ⟨x, y, h4⟩ := h2 s hs
    exact h _ _ (unimod_of_det h4)
  have h1 : ∀ β, f (cusp 0 1) β = g (cusp 0 1) β := by
    intro β
    induction β using OnePoint.rec with
    | infty => rw [← cusp_zero 1]; exact h0 1 0 (Or.inl one_ne_zero)
    | coe r =>
      have : ((r : ℚ) : OnePoint ℚ) = cusp r.num r.den := by
        unfold cusp
        rw [if_neg (by exact_mod_cast r.den_nz)]
        congr 1
        exact_mod_cast (Rat.num_div_den r).symm
      rw [this]
      exact h0 _ _ (Or.inr (by exact_mod_cast r.den_nz))
  funext α β
  have e1 := hf.add (cusp 0 1) α β
  have e2 := hg.add (cusp 0 1) α β
  rw [h1, h1] at e1
  linear_combination e1 - e2

/-- eigenvectors are recognised by the sums over the Heilbronn matrices -/
theorem eigen_of_msum (hN : 0 < N) (hf : IsModSym N pf f) (hφ : IsManin N pf φ) (hA : Assoc f φ) {p : ℕ} (hp : p.Prime) (hp2 : p ≠ 2)
    (hpN : ¬(p : ℤ) ∣ N) {a : K} (h : ∀ c d, Unimod N c d → msum φ c d (heilDefault p) = a * φ c d) : IsEigen p f a := by
  have : Fact p.Prime := ⟨hp⟩
  have hcop : IsCoprime (p : ℤ) N := (Prime.coprime_iff_not_dvd (Nat.prime_iff_prime_int.1 hp)).2 hpN
  have hL := heilDefault_isHeil (p := p) (hp.eq_two_or_odd.resolve_left hp2)
  obtain ⟨φ', hφ', hA'⟩ := exists_manin hN (heckeT_isModSym hf hcop)
  have hg : IsModSym N pf fun α β => a * f α β :=
    ⟨fun α β γ => by rw [← mul_add, hf.add], fun a' b c d h1 h2 α β => by rw [hf.inv a' b c d h1 h2],
      fun h α β => by rw [hf.sign h]; ring⟩
  have hB : Assoc (fun α β => a * f α β) fun c d => a * φ c d := fun x y u v h => by
    beta_reduce
    rw [hA x y u v h]
  have := eq_of_assoc (heckeT_isModSym hf hcop) hg hA' hB fun c d hu => by
    obtain ⟨x, y, u, v, hd, k1, k2⟩ := exists_matrix hN hu
    have he : Equiv N c d u v := ⟨1, isCoprime_one_left, by simpa using k1, by simpa using k2⟩
    rw [hφ'.equiv hu he, hφ.equiv hu he, hA' x y u v hd, ← heil_sum hf hφ hA hcop hL hd, h u v (unimod_of_det hd)]
  exact fun α β => congrFun (congrFun this α) β

end

/-- the values of the symbol at `(1:d)` -/
def row11 (d : ZMod 11) : ℤ := [-2, 0, -10, -5, 5, 10, 10, 5, -5, -10, 0].getD d.val 0

/-- the values at `(c:d)` -/
def tab11 (c d : ZMod 11) : ℤ := if c = 0 then 2 else row11 (d * c ^ 9)

/-- the function on M-symbols -/
def phi11 (K : Type*) [Field K] (c d : ℤ) : K := ((tab11 (c : ZMod 11) (d : ZMod 11) : ℤ) : K)

theorem unimod11 {c d : ℤ} (h : Unimod 11 c d) : (c : ZMod 11) ≠ 0 ∨ (d : ZMod 11) ≠ 0 := by
  obtain ⟨a, b, k, h⟩ := h
  by_contra hc
  push Not at hc
  have := congrArg (fun z : ℤ => (z : ZMod 11)) h
  push_cast at this
  rw [hc.1, hc.2, show (11 : ZMod 11) = 0 from rfl] at this
  simp at this
  exact absurd this (by decide)

theorem phi11_manin (K : Type*) [Field K] : IsManin 11 0 (phi11 K) := by
  refine ⟨?_, ?_, ?_, fun h => absurd rfl h⟩
  · rintro c d c' d' - ⟨u, hu, h1, h2⟩
    have e1 : (c' : ZMod 11) = u * c := by
      have := (ZMod.intCast_zmod_eq_zero_iff_dvd _ 11).2 h1
      push_cast at this
      exact sub_eq_zero.1 this
    have e2 : (d' : ZMod 11) = u * d := by
      have := (ZMod.intCast_zmod_eq_zero_iff_dvd _ 11).2 h2
      push_cast at this
      exact sub_eq_zero.1 this
    have hu0 : (u : ZMod 11) ≠ 0 := by
      intro h0
      obtain ⟨s, t, hst⟩ := hu
      have := congrArg (fun z : ℤ => (z : ZMod 11)) hst
      push_cast at this
      rw [h0, show (11 : ZMod 11) = 0 from rfl] at this
      simp at this
      exact absurd this (by decide)
    unfold phi11
    rw [e1, e2]
    have key : ∀ u c d : ZMod 11, u ≠ 0 → tab11 c d = tab11 (u * c) (u * d) := by decide +kernel
    rw [key _ _ _ hu0]
  · intro c d hu
    have key : ∀ c d : ZMod 11, (c ≠ 0 ∨ d ≠ 0) → tab11 c d + tab11 (-d) c = 0 := by decide +kernel
    unfold phi11
    have := key _ _ (unimod11 hu)
    rw [← Int.cast_add]
    push_cast
    exact_mod_cast congrArg (fun z : ℤ => (z : K)) this
  · intro c d hu
    have key : ∀ c d : ZMod 11, (c ≠ 0 ∨ d ≠ 0) → tab11 c d + tab11 (c - d) c + tab11 (-d) (c - d) = 0 := by decide +kernel
    unfold phi11
    have := key _ _ (unimod11 hu)
    rw [← Int.cast_add, ← Int.cast_add]
    push_cast
    exact_mod_cast congrArg (fun z : ℤ => (z : K)) this

/-- `T_3` -/
theorem phi11_three (K : Type*) [Field K] {c d : ℤ} (hu : Unimod 11 c d) :
    msum (phi11 K) c d (heilDefault (3 : ℕ)) = ((-1 : ℤ) : K) * phi11 K c d := by
  have e : heilDefault (3 : ℕ) = [⟨1, 0, 0, 3⟩, ⟨3, 0, 0, 1⟩, ⟨3, -1, 0, 1⟩, ⟨-1, 0, 1, -3⟩, ⟨3, 1, 0, 1⟩, ⟨1, 0, 1, 3⟩] := by decide +kernel
  rw [e]
  have key : ∀ c d : ZMod 11, (c ≠ 0 ∨ d ≠ 0) → tab11 (1 * c + 0 * d) (0 * c + 3 * d) + (tab11 (3 * c + 0 * d) (0 * c + 1 * d) +
      (tab11 (3 * c + 0 * d) (-1 * c + 1 * d) + (tab11 (-1 * c + 1 * d) (0 * c + -3 * d) + (tab11 (3 * c + 0 * d) (1 * c + 1 * d) +
      tab11 (1 * c + 1 * d) (0 * c + 3 * d))))) = -1 * tab11 c d := by decide +kernel
  have h := congrArg (fun z : ℤ => (z : K)) (key _ _ (unimod11 hu))
  unfold msum phi11
  simp only [List.map_cons, List.map_nil, List.sum_cons, List.sum_nil, add_zero]
  push_cast at h ⊢
  exact h

/-- the coordinates found for the vector `(2,5,-5)` at level 11 are the values of the symbol -/
theorem carries11 : ∃ H, ex11q = some H ∧ H.S.N = 11 ∧ findCoords .int 1009 H [2, 5, -5] = some ([2, 0, 10, 5, -5, -10], 1) ∧
    (∀ c d, Unimod 11 c d → nfCd H [2, 0, 10, 5, -5, -10] c d = some (tab11 c d)) ∧
    H.free[1]? = some 3 ∧ H.S.symbol 3 = some (3, 1) := by
  have : Fact (Nat.Prime 1009) := ⟨prime1009⟩
  obtain ⟨S, hS, _⟩ := Symb.specials_spec (by norm_num) ps11
  have hfuel : (S.nsymb.toNat + 11) * (2 * S.nsymb.toNat + 11) ≤ 805 := by
    have h : (Symbdata.make 11 [11]).map (fun S => S.nsymb) = some 12 := by decide +kernel
    rw [hS] at h
    have h' : S.nsymb = 12 := Option.some.inj h
    rw [h']
    decide
  obtain ⟨H, th, h1, m, h2, h3⟩ := C106_coords (q := 1009) (by norm_num) ps11 hS (pf := 0) (by norm_num) (by norm_num)
    Marith.Props.xgcd0 .int (sparse := fun _ => true) (fun _ _ => rfl) (Elim.rrefOk_echmodp Marith.Props.xgcd0 .int) hfuel
  have h1 : make Marith.Props.xgcd0 .int 1009 (fun _ => true) (Mat.echmodp Marith.Props.xgcd0 .int 1009) 805 S 0 = some (H, th) := h1
  have hH : ex11q = some H := by
    unfold ex11q
    rw [hS, Option.bind_some]
    rw [h1]
    rfl
  have hk : (ex11q.map fun H => (H.S.N, H.rk, H.free[1]?, H.S.symbol 3)) = some (11, 3, some 3, some (3, 1)) := by decide +kernel
  have k4 : (ex11q.bind fun H => findCoords .int 1009 H [2, 5, -5]) = some ([2, 0, 10, 5, -5, -10], 1) := by decide +kernel
  rw [hH, Option.bind_some] at k4
  have k5 : (ex11q.bind fun H => H.freemods) = some [(⟨0, 1⟩, ⟨1, 0⟩), (⟨0, 1⟩, ⟨1, 3⟩), (⟨0, 1⟩, ⟨1, 4⟩)] := by decide +kernel
  rw [hH, Option.bind_some, h2] at k5
  have k5 := Option.some.inj k5
  rw [hH, Option.map_some] at hk
  obtain ⟨k0, hk⟩ := Prod.mk.inj (Option.some.inj hk)
  obtain ⟨k1, hk⟩ := Prod.mk.inj hk
  obtain ⟨k2, k3⟩ := Prod.mk.inj hk
  obtain ⟨coords, g, e1, ⟨f, φ, hf, hφ, hA, hfb, e2⟩, -⟩ := h3 [2, 5, -5] (by rw [k1]; rfl) (by decide)
  have k4' : findCoords .int ((1009 : ℕ) : ℤ) H [2, 5, -5] = some ([2, 0, 10, 5, -5, -10], 1) := k4
  rw [k4'] at e1
  obtain ⟨rfl, rfl⟩ := Prod.mk.inj (Option.some.inj e1)
  refine ⟨H, hH, k0, k4, ?_, k2, k3⟩
  -- the two symbols modulo 1009 agree
  obtain ⟨f', hf', hA'⟩ := exists_modsym (phi11_manin (ZMod 1009))
  obtain ⟨H', th', e', m', g1, g2, -⟩ := C78_newheckeop (q := 1009) (by norm_num) ps11 hS (pf := 0) (by norm_num) (by norm_num)
    Marith.Props.xgcd0 .int (sparse := fun _ => true) (fun _ _ => rfl) (Elim.rrefOk_echmodp Marith.Props.xgcd0 .int) hfuel
  have e' : make Marith.Props.xgcd0 .int 1009 (fun _ => true) (Mat.echmodp Marith.Props.xgcd0 .int 1009) 805 S 0 = some (H', th') := e'
  rw [h1] at e'
  obtain ⟨rfl, rfl⟩ := Prod.mk.inj (Option.some.inj e')
  rw [h2] at g1
  have hm := List.ofFn_injective (Option.some.inj g1)
  subst hm
  have hff : f = f' := g2.unique f f' hf hf' fun j => by
    rw [hfb j]
    have v0 : f' (cusp 0 1) (cusp 1 0) = 2 := by
      rw [← hA' 1 0 0 1 (by norm_num)]
      show ((tab11 _ _ : ℤ) : ZMod 1009) = _
      have : tab11 ((0 : ℤ) : ZMod 11) ((1 : ℤ) : ZMod 11) = 2 := by decide +kernel
      rw [this]
      norm_num
    have hmj : ∀ (n : ℕ) (x : Ratl.R × Ratl.R), (j : ℕ) = n → [((⟨0, 1⟩ : Ratl.R), (⟨1, 0⟩ : Ratl.R)), (⟨0, 1⟩, ⟨1, 3⟩), (⟨0, 1⟩, ⟨1, 4⟩)][n]? = some x → m j = x := by
      intro n x hn hx
      rw [← k5, List.getElem?_ofFn, dif_pos (by rw [← hn]; exact j.2)] at hx
      rw [← Option.some.inj hx]
      congr 1
      exact Fin.ext hn
    have h01 : ∀ k : ℤ, k ≠ 0 → f' (cusp 0 1) (cusp 1 k) = phi11 (ZMod 1009) k 1 := by
      intro k hk
      rw [hA' 1 0 k 1 (by ring)]
    have hj3 : (j : ℕ) < 3 := by rw [← k1]; exact j.2
    rcases (by omega : (j : ℕ) = 0 ∨ (j : ℕ) = 1 ∨ (j : ℕ) = 2) with hj | hj | hj
    · rw [hmj 0 _ hj rfl, hj]
      show _ = f' (cusp 0 1) (cusp 1 0)
      rw [v0]
      norm_num
    · rw [hmj 1 _ hj rfl, hj]
      show _ = f' (cusp 0 1) (cusp 1 3)
      rw [h01 3 (by norm_num)]
      have : tab11 ((3 : ℤ) : ZMod 11) ((1 : ℤ) : ZMod 11) = 5 := by decide +kernel
      unfold phi11
      rw [this]
      rfl
    · rw [hmj 2 _ hj rfl, hj]
      show _ = f' (cusp 0 1) (cusp 1 4)
      rw [h01 4 (by norm_num)]
      have : tab11 ((4 : ℤ) : ZMod 11) ((1 : ℤ) : ZMod 11) = -5 := by decide +kernel
      unfold phi11
      rw [this]
      rfl
  intro c d hu
  obtain ⟨v, w1, w2, w3⟩ := e2 c d hu
  rw [w1]
  congr 1
  have hφφ : φ c d = phi11 (ZMod 1009) c d := by
    obtain ⟨x, y, u, w, hd, d1, d2⟩ := exists_matrix (by norm_num) hu
    have he : Equiv 11 c d u w := ⟨1, isCoprime_one_left, by simpa using d1, by simpa using d2⟩
    rw [hφ.equiv hu he, (phi11_manin (ZMod 1009)).equiv hu he, hA x y u w hd, hA' x y u w hd, hff]
  rw [hφφ, one_mul] at w2
  rw [one_mul] at w3
  have hb : ∀ c d : ZMod 11, |tab11 c d| ≤ 10 := by decide +kernel
  have hd : ((1009 : ℕ) : ℤ) ∣ v - tab11 c d := (ZMod.intCast_zmod_eq_zero_iff_dvd _ 1009).1 (by
    rw [Int.cast_sub, w2]
    exact sub_self _)
  refine sub_eq_zero.1 (Int.eq_zero_of_abs_lt_dvd hd ?_)
  have := hb c d
  have := abs_sub v (tab11 c d)
  push_cast at w3 ⊢
  omega

/-- `C106_apvec_partial` for the rational symbol of level 11 and `p = 3` -/
example : ∃ H, ex11q = some H ∧ apvec H 1 [11] (3 : ℕ) [⟨[2, 0, 10, 5, -5, -10], 1, 2, 5, [-1]⟩] = some [-1] := by
  obtain ⟨H, h1, h2, -, h4, h5, h6⟩ := carries11
  obtain ⟨f, hf, hA⟩ := exists_modsym (phi11_manin ℚ)
  refine ⟨H, h1, C106_apvec_partial (pf := 0) (by norm_num) h2 one_ne_zero (by norm_num) (by norm_num) (by norm_num) (.cons ?_ .nil) [11]⟩
  have hu : Unimod 11 3 1 := ⟨0, 1, 0, by norm_num⟩
  exact {
    eig := ⟨f, _, hf, phi11_manin ℚ, hA, fun c d hu => ⟨_, h4 c d hu, rfl⟩,
      eigen_of_msum (by norm_num) hf (phi11_manin ℚ) hA (by norm_num) (by norm_num) (by norm_num) fun c d hu => phi11_three ℚ hu⟩
    hasse := by norm_num
    j0 := by norm_num
    gen := ⟨3, (3, 1), 5, h5, h6, hu, by rw [h4 3 1 hu]; decide +kernel, by norm_num⟩
    fac := by norm_num
    cont := dvd_rfl }

/-- `C107_symbol` for the rational symbol of level 11 with `p = 3`: `L/P` is 2 (with `denomplus` 1), and the values at `1/3` -/
example : ∃ H f, ex11q = some H ∧ IsModSym 11 0 f ∧ f (cusp 0 1) (cusp 1 0) = (2 : ℚ) ∧
    findBsd [2, 0, 10, 5, -5, -10] 10 1 (3 : ℕ) (-1) = some ([-2, 0, -10, -5, 5, 10], 2) ∧
    plusSymbol H [-2, 0, -10, -5, 5, 10] 1 1 2 1 3 false = some (-f (cusp 0 1) (cusp 1 3)) ∧
    plusSymbol H [-2, 0, -10, -5, 5, 10] 1 1 2 1 3 true = some (-f (cusp 1 0) (cusp 1 3)) := by
  obtain ⟨H, h1, h2, -, h4, h5, h6⟩ := carries11
  obtain ⟨f, hf, hA⟩ := exists_modsym (phi11_manin ℚ)
  have heig : IsEigen 3 f ((-1 : ℤ) : ℚ) :=
    eigen_of_msum (by norm_num) hf (phi11_manin ℚ) hA (by norm_num) (by norm_num) (by norm_num) fun c d hu => phi11_three ℚ hu
  have hval : f (cusp 0 1) (cusp 1 0) = 2 := by
    rw [← hA 1 0 0 1 (by norm_num)]
    show ((tab11 _ _ : ℤ) : ℚ) = _
    have : tab11 ((0 : ℤ) : ZMod 11) ((1 : ℤ) : ZMod 11) = 2 := by decide +kernel
    rw [this]
    norm_num
  obtain ⟨coords', lp, e1, e, he, hpos, e2, e3⟩ := C107_symbol (cont := 1) (cusp0 := 1) hf hA one_pos one_pos
    (fun c d hu => ⟨_, h4 c d hu, by rw [Int.cast_one, one_mul]; rfl⟩) (p := 3) (by norm_num) (ap := -1) (by norm_num) heig (pdot := 10)
    (by rw [C107_manin_sum hf (by norm_num) heig, hval]; norm_num) (one_dvd _)
  have hb : findBsd [2, 0, 10, 5, -5, -10] 10 (1 * 1) (3 : ℕ) (-1) = some ([-2, 0, -10, -5, 5, 10], 2) := by norm_num [findBsd]
  rw [hb] at e1
  obtain ⟨rfl, rfl⟩ := Prod.mk.inj (Option.some.inj e1)
  have hneg : e = -1 := by
    rcases he with rfl | rfl
    · rw [symb_swap hf, hval] at hpos
      norm_num at hpos
    · rfl
  subst hneg
  obtain ⟨e4, e5⟩ := e3 1 1 3 (Or.inl one_ne_zero)
  refine ⟨H, f, h1, hf, hval, by rw [← hb]; rfl, ?_, ?_⟩
  · simpa using e4
  · simpa using e5

end Eclib.Newf
