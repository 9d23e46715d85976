import Verif.Newf.CoordProps
import Mathlib.Algebra.BigOperators.Intervals

/-!
# C107: Manin's vector, the ratio L/P and the modular symbols of a newform
-/

set_option linter.unusedSectionVars false

namespace Eclib.Newf

open Ratl (R)
open Symb (Symbdata)
open Symb.SymbSpec Symb.CuspSpec Hom Hom.ManinSpec NewfSpec
open Svec (T SV)
open Smat.Props (SRep)
open Elim (RrefOk SparseOk)

section

variable {K : Type*} [Field K] {N pf : ℤ} {f : OnePoint ℚ → OnePoint ℚ → K}

theorem symb_self (hf : IsModSym N pf f) (α : OnePoint ℚ) : f α α = 0 := by
  have := hf.add α α α
  simpa using this

theorem symb_swap (hf : IsModSym N pf f) (α β : OnePoint ℚ) : f α β = -f β α := by
  have := hf.add α β α
  rw [symb_self hf] at this
  linear_combination this

/-- invariance under translations -/
theorem symb_shift (hf : IsModSym N pf f) {p : ℤ} (hp : p ≠ 0) (k : ℤ) : f (cusp 0 1) (cusp (k + p) p) = f (cusp 0 1) (cusp k p) := by
  rw [← hf.add (cusp 0 1) (cusp 1 0) (cusp (k + p) p), ← hf.add (cusp 0 1) (cusp 1 0) (cusp k p)]
  congr 1
  have h1 := hf.inv 1 1 0 1 (by norm_num) (dvd_zero N) (cusp 1 0) (cusp k p)
  rw [mob_cusp _ _ _ _ (Or.inl one_ne_zero), mob_cusp _ _ _ _ (Or.inr hp)] at h1
  simpa using h1

theorem symb_neg (hf : IsModSym N pf f) (hpf : pf ≠ 0) {p : ℤ} (hp : p ≠ 0) (k : ℤ) :
    f (cusp 0 1) (cusp (-k) p) = (pf : K) * f (cusp 0 1) (cusp k p) := by
  have h1 := hf.sign hpf (cusp 0 1) (cusp k p)
  rw [mob_cusp _ _ _ _ (Or.inr one_ne_zero), mob_cusp _ _ _ _ (Or.inr hp)] at h1
  simpa using h1

/-- **C107** (Manin).  For an eigenvector of `T_p` the sum of the symbols `{0, k/p}` is `1 + p - a_p` times `{0, ∞}`. -/
theorem C107_manin_sum (hf : IsModSym N pf f) {p : ℕ} (hp : p ≠ 0) {a : K} (he : IsEigen p f a) :
    ∑ k ∈ Finset.range p, f (cusp 0 1) (cusp k p) = (1 + p - a) * f (cusp 0 1) (cusp 1 0) := by
  have hp' : (p : ℤ) ≠ 0 := by exact_mod_cast hp
  have h1 := he (cusp 0 1) (cusp 1 0)
  unfold heckeT at h1
  rw [mob_cusp _ _ _ _ (Or.inr one_ne_zero), mob_cusp _ _ _ _ (Or.inl one_ne_zero)] at h1
  have e1 : ∀ k : ℕ, f (mob 1 k 0 p (cusp 0 1)) (mob 1 k 0 p (cusp 1 0)) = f (cusp 0 1) (cusp 1 0) - f (cusp 0 1) (cusp k p) := by
    intro k
    rw [mob_cusp _ _ _ _ (Or.inr one_ne_zero), mob_cusp _ _ _ _ (Or.inl one_ne_zero), ← hf.add (cusp 0 1) (cusp k p) (cusp 1 0)]
    simp
  rw [Finset.sum_congr rfl fun k _ => e1 k, Finset.sum_sub_distrib, Finset.sum_const, Finset.card_range, nsmul_eq_mul] at h1
  have e2 : cusp ((p : ℤ) * 0 + 0 * 1) (0 * 0 + 1 * 1) = cusp 0 1 := by norm_num
  have e3 : cusp ((p : ℤ) * 1 + 0 * 0) (0 * 1 + 1 * 0) = cusp 1 0 := by rw [show (0 : ℤ) * 1 + 1 * 0 = 0 by norm_num, cusp_zero, cusp_zero]
  rw [e2, e3] at h1
  linear_combination -h1

/-- the sum over all residues is twice the sum over half of them, and so on -/
theorem range_odd (hf : IsModSym N pf f) (m : ℕ) :
    ∑ k ∈ Finset.range (2 * m + 1), f (cusp 0 1) (cusp (k : ℤ) ((2 * m + 1 : ℕ) : ℤ)) =
      (∑ k ∈ Finset.range m, f (cusp 0 1) (cusp ((k + 1 : ℕ) : ℤ) ((2 * m + 1 : ℕ) : ℤ))) +
      ∑ k ∈ Finset.range m, f (cusp 0 1) (cusp (-((k + 1 : ℕ) : ℤ)) ((2 * m + 1 : ℕ) : ℤ)) := by
  set p : ℤ := ((2 * m + 1 : ℕ) : ℤ) with hp
  have hp0 : p ≠ 0 := by rw [hp]; positivity
  rw [Finset.sum_range_succ']
  have e0 : f (cusp 0 1) (cusp ((0 : ℕ) : ℤ) p) = 0 := by
    have : cusp ((0 : ℕ) : ℤ) p = cusp 0 1 := by
      have := cusp_scale hp0 0 1
      simpa using this
    rw [this, symb_self hf]
  rw [e0, add_zero, two_mul, Finset.sum_range_add]
  congr 1
  rw [← Finset.sum_range_reflect]
  refine Finset.sum_congr rfl fun k hk => ?_
  rw [Finset.mem_range] at hk
  rw [← symb_shift hf hp0 (-((k + 1 : ℕ) : ℤ))]
  congr 2
  omega

end

section

variable {q : ℕ} [Fact q.Prime] {N pf : ℤ} {H : Space} {x : ℤ → ℤ → Fin H.rk → ℤ} {gen : Fin H.rk → ℤ × ℤ}

theorem addRat_combo (h : SpaceOk q N pf H x gen) {nn dd : ℤ} (hnd : nn ≠ 0 ∨ dd ≠ 0) {v : SV} {a : Fin H.rk → ℤ} (hv : SRep True v a)
    {F : (OnePoint ℚ → OnePoint ℚ → ZMod q) → ZMod q} (hF : IsCombo q N pf (fun j => modsym (gen j)) a F) :
    ∃ v' a', H.addRat v nn dd = some v' ∧ SRep True v' a' ∧
      IsCombo q N pf (fun j => modsym (gen j)) a' fun f => F f + f (cusp 0 1) (cusp nn dd) := by
  have hN : (0 : ℤ) < N := by have := h.lev; omega
  obtain ⟨f0, hf0, -⟩ := h.basis.exist 0
  obtain ⟨φ0, hφ0, hA0⟩ := exists_manin hN hf0
  have hu : ∀ s ∈ ((0, 1) :: cf 0 1 nn dd : List (ℤ × ℤ)), Unimod N s.1 s.2 := by
    intro s hs
    obtain ⟨y, z, h1⟩ := (addRat_list hf0 hA0 hnd).2 s hs
    exact unimod_of_det h1
  obtain ⟨v', e1, e2⟩ := h.addList _ hv hu
  refine ⟨v', _, e1, e2, fun f hf => ?_⟩
  obtain ⟨φ, hφ, hA⟩ := exists_manin hN hf
  show F f + f _ _ = _
  rw [← (addRat_list hf hA hnd).1, h.combo hφ hA _ hu, hF f hf, ← Finset.sum_add_distrib]
  refine Finset.sum_congr rfl fun j _ => ?_
  rw [Pi.add_apply]
  push_cast
  ring

theorem foldAdd_combo (h : SpaceOk q N pf H x gen) {p : ℤ} (hp : p ≠ 0) (g : ℤ → ℤ) : ∀ (is : List ℤ) {v : SV} {a : Fin H.rk → ℤ}
    {F : (OnePoint ℚ → OnePoint ℚ → ZMod q) → ZMod q}, SRep True v a → IsCombo q N pf (fun j => modsym (gen j)) a F →
    ∃ v' a', is.foldlM (fun v i => H.addRat v (g i) p) v = some v' ∧ SRep True v' a' ∧
      IsCombo q N pf (fun j => modsym (gen j)) a' fun f => F f + (is.map fun i => f (cusp 0 1) (cusp (g i) p)).sum
  | [], v, a, F, hv, hF => ⟨v, a, rfl, hv, by simpa using hF⟩
  | i :: is, v, a, F, hv, hF => by
    obtain ⟨v1, a1, e1, h1, h2⟩ := addRat_combo h (nn := g i) (Or.inr hp) hv hF
    obtain ⟨v2, a2, e2, h3, h4⟩ := foldAdd_combo h hp g is h1 h2
    refine ⟨v2, a2, ?_, h3, ?_⟩
    · rw [List.foldlM_cons, e1]
      exact e2
    · intro f hf
      have := h4 f hf
      simp only at this
      rw [← this]
      beta_reduce
      rw [List.map_cons, List.sum_cons]
      ring

theorem maninvector_core (h : SpaceOk q N pf H x gen) (hpf : pf = 0 ∨ pf = 1 ∨ pf = -1) (hq : q ≠ 2) {p : ℕ} (hp : p.Prime) :
    ∃ v a, maninvector H p = some v ∧ SRep True v a ∧
      IsCombo q N pf (fun j => modsym (gen j)) a fun f => ∑ k ∈ Finset.range p, f (cusp 0 1) (cusp k p) := by
  have hp0 : (p : ℤ) ≠ 0 := by exact_mod_cast hp.ne_zero
  obtain ⟨v, a, e1, h1, h2⟩ := h.coordsRat (nn := 0) (dd := p) (Or.inr hp0)
  have hz : ∀ f : OnePoint ℚ → OnePoint ℚ → ZMod q, IsModSym N pf f → f (cusp 0 1) (cusp 0 p) = 0 := by
    intro f hf
    have : cusp 0 (p : ℤ) = cusp 0 1 := by
      have := cusp_scale hp0 0 1
      simpa using this
    rw [this, symb_self hf]
  unfold maninvector
  rw [e1, Option.bind_some, h.sgn]
  rcases hp.eq_two_or_odd with rfl | hodd
  · -- p = 2
    have hsum : ∀ f : OnePoint ℚ → OnePoint ℚ → ZMod q, IsModSym N pf f → ∑ k ∈ Finset.range 2, f (cusp 0 1) (cusp (k : ℤ) ((2 : ℕ) : ℤ)) =
        f (cusp 0 1) (cusp 1 2) := by
      intro f hf
      rw [Finset.sum_range_succ, Finset.sum_range_one]
      have := hz f hf
      simp only [Nat.cast_zero, Nat.cast_ofNat, Nat.cast_one] at this ⊢
      rw [this, zero_add]
    by_cases hm : pf = -1
    · rw [if_pos hm]
      refine ⟨v, a, rfl, h1, fun f hf => ?_⟩
      rw [← h2 f hf]
      beta_reduce
      rw [hz f hf, hsum f hf]
      have h3 := symb_neg hf (by omega) (p := 2) (by norm_num) (-1)
      have h4 := symb_shift hf (p := 2) (by norm_num) (-1)
      rw [hm] at h3
      norm_num at h3 h4
      rw [← h4] at h3
      have : (2 : ZMod q) * f (cusp 0 1) (cusp 1 2) = 0 := by linear_combination h3
      rcases mul_eq_zero.1 this with h5 | h5
      · exfalso
        have : ((2 : ℕ) : ZMod q) = 0 := by exact_mod_cast h5
        rw [ZMod.natCast_eq_zero_iff] at this
        rcases (Nat.dvd_prime Nat.prime_two).1 this with h6 | h6
        · exact (Fact.out : q.Prime).one_lt.ne' h6
        · exact hq h6
      · exact h5
    · rw [if_neg hm, if_pos (by norm_num)]
      obtain ⟨v', a', e2, h3, h4⟩ := addRat_combo h (nn := 1) (dd := 2) (Or.inl one_ne_zero) h1 h2
      refine ⟨v', a', e2, h3, fun f hf => ?_⟩
      rw [← h4 f hf]
      have := hz f hf
      simp only at this ⊢
      rw [this, zero_add]
      exact hsum f hf
  · -- p odd
    obtain ⟨m, hm⟩ : ∃ m, p = 2 * m + 1 := ⟨p / 2, by omega⟩
    have hsum : ∀ f : OnePoint ℚ → OnePoint ℚ → ZMod q, IsModSym N pf f → ∑ k ∈ Finset.range p, f (cusp 0 1) (cusp (k : ℤ) (p : ℤ)) =
        (∑ k ∈ Finset.range m, f (cusp 0 1) (cusp ((k + 1 : ℕ) : ℤ) (p : ℤ))) +
          ∑ k ∈ Finset.range m, f (cusp 0 1) (cusp (-((k + 1 : ℕ) : ℤ)) (p : ℤ)) := by
      intro f hf
      have := range_odd hf m
      rw [← hm] at this
      exact this
    have hlist : ∀ g : ℤ → ZMod q, ((((List.range (((p : ℤ) - 1) / 2).toNat).map fun (k : ℕ) => ((k + 1 : ℕ) : ℤ))).map g).sum =
        ∑ k ∈ Finset.range m, g ((k + 1 : ℕ) : ℤ) := by
      intro g
      have : (((p : ℤ) - 1) / 2).toNat = m := by omega
      rw [this]
      clear this hsum hm
      induction m with
      | zero => rfl
      | succ m ih => rw [List.range_succ, List.map_append, List.map_append, List.sum_append, ih, Finset.sum_range_succ]; simp
    by_cases hm1 : pf = -1
    · rw [if_pos hm1]
      refine ⟨v, a, rfl, h1, fun f hf => ?_⟩
      rw [← h2 f hf]
      beta_reduce
      rw [hz f hf, hsum f hf, Finset.sum_congr rfl fun k _ => symb_neg hf (by omega) hp0 ((k + 1 : ℕ) : ℤ), ← Finset.mul_sum, hm1]
      push_cast
      ring
    · have hp2 : ¬(p : ℤ) = 2 := by omega
      rw [if_neg hm1, if_neg hp2]
      simp only
      obtain ⟨v', a', e2, h3, h4⟩ := foldAdd_combo h hp0 (fun i => i)
        ((List.range (((p : ℤ) - 1) / 2).toNat).map fun (k : ℕ) => ((k + 1 : ℕ) : ℤ)) h1 h2
      rw [e2, Option.bind_some]
      by_cases hpf0 : pf = 0
      · rw [if_neg (by simpa using hpf0)]
        obtain ⟨v2, a2, e3, h5, h6⟩ := foldAdd_combo h hp0 (fun i => -i)
          ((List.range (((p : ℤ) - 1) / 2).toNat).map fun (k : ℕ) => ((k + 1 : ℕ) : ℤ)) h3 h4
        refine ⟨v2, a2, e3, h5, fun f hf => ?_⟩
        rw [← h6 f hf]
        simp only
        rw [hz f hf, zero_add, hlist, hlist]
        exact hsum f hf
      · rw [if_pos hpf0]
        have h1' : pf = 1 := by omega
        refine ⟨_, _, rfl, Smat.Props.srep_imul h3 2 (fun _ => by norm_num), fun f hf => ?_⟩
        have h5 := h4 f hf
        simp only [hz f hf, zero_add, hlist] at h5
        beta_reduce
        rw [hsum f hf, Finset.sum_congr rfl fun k _ => symb_neg hf hpf0 hp0 ((k + 1 : ℕ) : ℤ), ← Finset.mul_sum, h5, h1', Int.cast_one, one_mul,
          ← two_mul, Finset.mul_sum]
        refine Finset.sum_congr rfl fun j _ => ?_
        simp only [Pi.smul_apply, smul_eq_mul]
        push_cast
        ring

end

/-- **C107** (Manin's vector).  For a space constructed for the level the vector `maninvector(p)` is the linear form
`f ↦ ∑ f{0, k/p}`, `k` modulo `p`; its value at an eigenvector of `T_p` with eigenvalue `a` is `(1 + p - a) f{0, ∞}`. -/
theorem C107_maninvector {q : ℕ} [Fact q.Prime] {N : ℤ} (hN : 1 < N) {ps : List ℤ} (hps : Spec.IsPrimeDivisorList N ps)
    {S : Symbdata} (hS : Symbdata.make N ps = some S) {pf : ℤ} (hpf : pf = 0 ∨ pf = 1 ∨ pf = -1) (hq : 3 < q)
    (X : Marith.XGcd) (t : T) {sparse : Elim.St → Bool} (hsp : SparseOk sparse) {rref : Mat.M → Mat.Ech}
    (hRr : RrefOk q rref) {fuel : ℕ} (hf : (S.nsymb.toNat + 11) * (2 * S.nsymb.toNat + 11) ≤ fuel) :
    ∃ H th, make X t q sparse rref fuel S pf = some (H, th) ∧ ∃ m : Fin H.rk → R × R, H.freemods = some (List.ofFn m) ∧
      ∀ p : ℕ, p.Prime → ∃ v a, maninvector H p = some v ∧ SRep True v a ∧
        IsCombo q N pf m a (fun f => ∑ k ∈ Finset.range p, f (cusp 0 1) (cusp k p)) ∧
        ∀ f, IsModSym N pf f → ∀ ap : ZMod q, IsEigen p f ap →
          ∑ j, ((a j : ℤ) : ZMod q) * f (rc (m j).1) (rc (m j).2) = (1 + p - ap) * f (cusp 0 1) (cusp 1 0) := by
  obtain ⟨H, th, e, x, gen, h⟩ := SpaceOk.of_make hN hps hS hpf hq X t hsp hRr hf
  refine ⟨H, th, e, _, h.freemods, fun p hp => ?_⟩
  obtain ⟨v, a, h1, h2, h3⟩ := maninvector_core h hpf (by omega) hp
  exact ⟨v, a, h1, h2, h3, fun f hf ap he => by
    rw [← C107_manin_sum hf hp.ne_zero he]
    exact (h3 f hf).symm⟩

/-! ### L/P and the values -/

theorem nfCd_map (H : Space) (coords : List ℤ) (c d : ℤ) : nfCd H (coords.map fun x => x * -1) c d = (nfCd H coords c d).map fun x => -x := by
  unfold nfCd nfIndex
  rw [Option.map_bind]
  congr 1
  funext ind
  simp only [Function.comp]
  rw [Option.map_bind]
  congr 1
  funext i
  simp only [Function.comp]
  split_ifs
  · rw [List.getElem?_map]
    congr 1
    funext y
    ring
  · rw [List.getElem?_map, Option.map_map, Option.map_map]
    congr 1
    funext y
    simp
  · simp

/-- **C107** (modular symbols).  Let the rational modular symbol `f` be an eigenvector of `T_p` with eigenvalue `ap`, `1 + p - ap > 0`, with
values `contplus` times the coordinates, and let `pdot` be the sum of `f{0, k/p}`, divisible by `denomplus`.  Then `find_bsd_ratio`
succeeds; for the sign `e` with `e f{∞, 0} ≥ 0` the number `loverp` is `e f{∞, 0}/denomplus`, and `plus_modular_symbol(r)` returns
`e f{0, r}/denomplus`, or `e f{∞, r}/denomplus` for the base point `∞`, times the factor of optimality. -/
theorem C107_symbol {N pf : ℤ} {H : Space} {f : OnePoint ℚ → OnePoint ℚ → ℚ} {φ : ℤ → ℤ → ℚ} (hf : IsModSym N pf f) (hA : Assoc f φ)
    {coords : List ℤ} {cont cusp0 : ℤ} (hcont : 0 < cont) (hcusp : 0 < cusp0)
    (hc : ∀ c d, Unimod N c d → ∃ v, nfCd H coords c d = some v ∧ (cont * v : ℚ) = φ c d) {p : ℕ} (hp : p ≠ 0) {ap : ℤ} (hap : 0 < 1 + p - ap)
    (he : IsEigen p f (ap : ℚ)) {pdot : ℤ} (hpdot : (pdot : ℚ) = ∑ k ∈ Finset.range p, f (cusp 0 1) (cusp k p)) (hd : cont * cusp0 ∣ pdot) :
    ∃ coords' lp, findBsd coords pdot (cont * cusp0) p ap = some (coords', lp) ∧ ∃ e : ℚ, (e = 1 ∨ e = -1) ∧ 0 ≤ e * f (cusp 1 0) (cusp 0 1) ∧
      lp = e * f (cusp 1 0) (cusp 0 1) / (cont * cusp0) ∧
      ∀ (opt : ℚ) (nn dd : ℤ), nn ≠ 0 ∨ dd ≠ 0 →
        plusSymbol H coords' cusp0 opt lp nn dd false = some (e * f (cusp 0 1) (cusp nn dd) / (cont * cusp0) * opt) ∧
        plusSymbol H coords' cusp0 opt lp nn dd true = some (e * f (cusp 1 0) (cusp nn dd) / (cont * cusp0) * opt) := by
  have hsum := C107_manin_sum hf hp he
  rw [← hpdot] at hsum
  have hc0 : (cont : ℚ) ≠ 0 := by exact_mod_cast hcont.ne'
  have hk0 : (cusp0 : ℚ) ≠ 0 := by exact_mod_cast hcusp.ne'
  have hnp : (0 : ℚ) < ((1 + (p : ℤ) - ap : ℤ) : ℚ) := by exact_mod_cast hap
  have hden : 0 < cont * cusp0 := by positivity
  set e : ℤ := if pdot > 0 then -1 else 1 with hedef
  have he1 : (e : ℚ) = 1 ∨ (e : ℚ) = -1 := by
    rw [hedef]
    split_ifs
    · right; norm_num
    · left; norm_num
  set dp0 : ℤ := |if pdot > 0 then pdot * -1 else pdot| with hdp
  have hdp0 : dp0 = -(e * pdot) := by
    rw [hdp, hedef]
    split_ifs with h1
    · rw [abs_of_neg (by omega)]
      ring
    · rw [abs_of_nonpos (by omega)]
      ring
  have hdp1 : 0 ≤ dp0 := abs_nonneg _
  have hddv : cont * cusp0 ∣ dp0 := by rw [hdp0]; exact (hd.mul_left e).neg_right
  have hval : ((dp0 : ℤ) : ℚ) / ((1 + (p : ℤ) - ap : ℤ) : ℚ) = e * f (cusp 1 0) (cusp 0 1) := by
    rw [div_eq_iff hnp.ne', hdp0, symb_swap hf (cusp 1 0)]
    push_cast
    push_cast at hsum
    rw [hsum]
    ring
  have hfb : findBsd coords pdot (cont * cusp0) p ap =
      some (if pdot > 0 then coords.map fun x => x * -1 else coords, (e * f (cusp 1 0) (cusp 0 1)) / (cont * cusp0)) := by
    unfold findBsd
    simp only
    rw [← hdp, if_neg hap.ne']
    by_cases h1 : dp0 ≠ 0 ∧ cont * cusp0 > 1
    · rw [if_pos h1, if_pos (Int.tmod_eq_zero_of_dvd hddv), ← hval]
      obtain ⟨z, hz⟩ := hddv
      congr 2
      rw [hz, Int.mul_tdiv_cancel_left _ hden.ne']
      push_cast
      field_simp
    · rw [if_neg h1, hval]
      congr 2
      by_cases h2 : dp0 = 0
      · rw [← hval, h2]
        simp
      · have h3 : cont * cusp0 = 1 := by
          by_contra h4
          exact h1 ⟨h2, by omega⟩
        have h4 : (cont : ℚ) * cusp0 = 1 := by exact_mod_cast h3
        rw [h4, div_one]
  refine ⟨_, _, hfb, e, he1, ?_, rfl, ?_⟩
  · rw [← hval]
    positivity
  · intro opt nn dd hnd
    -- the coordinates carry e f / cont
    have hcar : ∃ v, nfRat H (if pdot > 0 then coords.map fun x => x * -1 else coords) nn dd = some v ∧
        (cont * v : ℚ) = e * f (cusp 0 1) (cusp nn dd) := by
      have hcar : Carries N H (if pdot > 0 then coords.map fun x => x * -1 else coords) fun c d => (e : ℚ) / cont * φ c d := by
        intro c d hu
        obtain ⟨v, h1, h2⟩ := hc c d hu
        rw [hedef]
        split_ifs
        · refine ⟨-v, by rw [nfCd_map, h1]; rfl, ?_⟩
          beta_reduce
          rw [← h2]
          push_cast
          field_simp
        · refine ⟨v, h1, ?_⟩
          beta_reduce
          rw [← h2]
          push_cast
          field_simp
      have hf' : IsModSym N pf fun α β => (e : ℚ) / cont * f α β :=
        ⟨fun α β γ => by rw [← mul_add, hf.add], fun a' b c d h1 h2 α β => by rw [hf.inv a' b c d h1 h2],
          fun h α β => by rw [hf.sign h]; ring⟩
      have hA' : Assoc (fun α β => (e : ℚ) / cont * f α β) fun c d => (e : ℚ) / cont * φ c d :=
        fun a b c d h => by
          beta_reduce
          rw [hA a b c d h]
      obtain ⟨v, h1, h2⟩ := nfRat_spec hf' hA' hcar hnd
      refine ⟨v, h1, ?_⟩
      rw [h2]
      field_simp
    obtain ⟨v, h1, h2⟩ := hcar
    have h3 : (v : ℚ) = e * f (cusp 0 1) (cusp nn dd) / cont := by
      rw [← h2]
      field_simp
    constructor
    · unfold plusSymbol
      rw [h1, Option.map_some, h3]
      simp only [Bool.false_eq_true, if_false, add_zero]
      congr 2
      field_simp
    · unfold plusSymbol
      rw [h1, Option.map_some, h3]
      simp only [if_true]
      congr 2
      rw [← hf.add (cusp 1 0) (cusp 0 1) (cusp nn dd)]
      field_simp
      ring

/-- **C107** (minus part).  For `minus_modular_symbol` the base point does not matter when `f{0, ∞} = 0`, as it is for symbols of sign -1. -/
theorem C107_minus {N : ℤ} {H : Space} {f : OnePoint ℚ → OnePoint ℚ → ℚ} {φ : ℤ → ℤ → ℚ} (hf : IsModSym N (-1) f) (hA : Assoc f φ)
    {coords : List ℤ} (hc : Carries N H coords φ) (cusp0 : ℤ) (opt : ℚ) {nn dd : ℤ} (hnd : nn ≠ 0 ∨ dd ≠ 0) (base : Bool) :
    minusSymbol H coords cusp0 opt nn dd base = some (f (if base then cusp 1 0 else cusp 0 1) (cusp nn dd) / cusp0 * opt) := by
  obtain ⟨v, h1, h2⟩ := nfRat_spec hf hA hc hnd
  have h0 : f (cusp 1 0) (cusp 0 1) = 0 := by
    have := hf.sign (by norm_num) (cusp 1 0) (cusp 0 1)
    rw [mob_cusp _ _ _ _ (Or.inr one_ne_zero), mob_cusp _ _ _ _ (Or.inl one_ne_zero)] at this
    norm_num at this
    rw [cusp_zero, cusp_zero] at this
    rw [cusp_zero]
    linarith
  have h3 : f (if base then cusp 1 0 else cusp 0 1) (cusp nn dd) = f (cusp 0 1) (cusp nn dd) := by
    cases base
    · rfl
    · simp only [if_true]
      rw [← hf.add (cusp 1 0) (cusp 0 1) (cusp nn dd), h0, zero_add]
  unfold minusSymbol
  rw [h1, Option.map_some, h2, h3]

end Eclib.Newf
