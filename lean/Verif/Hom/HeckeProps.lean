import Verif.Hom.Hecke
import Verif.Hom.SymProps

/-!
# C77: the matrices of Hecke operators and Atkin–Lehner involutions
-/

set_option linter.unusedSectionVars false

namespace Eclib.Hom

open Ratl (R)
open Symb (Symbdata)
open Symb.SymbSpec Symb.CuspSpec ManinSpec
open Svec (T SV)
open Smat.Props (SRep)
open Elim (RrefOk SparseOk)

namespace ManinSpec

/-- `A` is the matrix of an operator `F` on modular symbols: `F` maps modular symbols to modular symbols, and the
values of `F f` at the symbols `m j` are those of `f` multiplied by `A`. -/
def IsMatOf (q : ℕ) [Fact q.Prime] (N pf : ℤ) {k : ℕ} (m : Fin k → R × R) (A : Fin k → Fin k → ℤ)
    (F : (OnePoint ℚ → OnePoint ℚ → ZMod q) → OnePoint ℚ → OnePoint ℚ → ZMod q) : Prop :=
  ∀ f, IsModSym N pf f → IsModSym N pf (F f) ∧
    ∀ j, F f (rc (m j).1) (rc (m j).2) = ∑ i, ((A j i : ℤ) : ZMod q) * f (rc (m i).1) (rc (m i).2)

end ManinSpec

/-- the determinant -/
def M22.det (M : M22) : ℤ := M.a * M.d - M.b * M.c

/-- the sum over a list of matrices -/
noncomputable def opSum {K : Type*} [Field K] (l : List M22) (f : OnePoint ℚ → OnePoint ℚ → K) (α β : OnePoint ℚ) : K :=
  (l.map fun M => slash M.a M.b M.c M.d f α β).sum

theorem rc_act {M : M22} (hM : M.det ≠ 0) {r : R} (hr : IsCusp r) :
    IsCusp (M.act r) ∧ rc (M.act r) = mob M.a M.b M.c M.d (rc r) := by
  have h0 := ne_zero_of_coprime hr.1
  obtain ⟨h1, h2⟩ := mk_cusp (apply_ne hM h0)
  refine ⟨h1, h2.trans ?_⟩
  unfold rc
  rw [mob_cusp _ _ _ _ h0]

section

variable {q : ℕ} [Fact q.Prime] {N pf : ℤ} {H : Space} {x : ℤ → ℤ → Fin H.rk → ℤ} {gen : Fin H.rk → ℤ × ℤ}

theorem SpaceOk.applyop (h : SpaceOk q N pf H x gen) (mlist : List M22) (hm : ∀ M ∈ mlist, M.det ≠ 0) {m : R × R}
    (h1 : IsCusp m.1) (h2 : IsCusp m.2) : ∃ v a, H.applyop mlist m = some v ∧ SRep True v a ∧
      IsCombo q N pf (fun j => modsym (gen j)) a fun f => opSum mlist f (rc m.1) (rc m.2) := by
  have key : ∀ l : List M22, (∀ M ∈ l, M.det ≠ 0) → ∀ (v : SV) (a : Fin H.rk → ℤ), SRep True v a → ∃ v' a',
      l.foldlM (fun ans M => (H.coordsSym (M.actSym m)).map fun v => Svec.iadd ans v) v = some v' ∧ SRep True v' (a + a') ∧
      IsCombo q N pf (fun j => modsym (gen j)) a' fun f => opSum l f (rc m.1) (rc m.2) := by
    intro l
    induction l with
    | nil => exact fun _ v a hv => ⟨v, 0, rfl, by simpa using hv, fun f _ => by simp [opSum]⟩
    | cons M l ih =>
      intro hl v a hv
      have hM := hl M List.mem_cons_self
      obtain ⟨k1, k2⟩ := rc_act hM h1
      obtain ⟨k3, k4⟩ := rc_act hM h2
      obtain ⟨w, b, e1, e2, e3⟩ := h.coordsSym (m := M.actSym m) k1 k3
      obtain ⟨v', a', e4, e5, e6⟩ := ih (fun M hM => hl M (List.mem_cons_of_mem _ hM)) _ _ (Smat.Props.srep_iadd hv e2)
      refine ⟨v', b + a', ?_, by rw [← add_assoc]; exact e5, fun f hf => ?_⟩
      · rw [List.foldlM_cons, e1]
        exact e4
      · have y1 := e3 f hf
        have y2 := e6 f hf
        simp only [M22.actSym] at y1 y2
        rw [k2, k4] at y1
        show opSum (M :: l) f _ _ = _
        have : opSum (M :: l) f (rc m.1) (rc m.2) = slash M.a M.b M.c M.d f (rc m.1) (rc m.2) + opSum l f (rc m.1) (rc m.2) := by
          simp [opSum]
        rw [this, y2]
        unfold slash
        rw [y1, ← Finset.sum_add_distrib]
        apply Finset.sum_congr rfl
        intro j _
        rw [Pi.add_apply]
        push_cast
        ring
  obtain ⟨v, a, e1, e2, e3⟩ := key mlist.reverse (fun M hM => hm M (List.mem_reverse.1 hM)) _ _ (Smat.Props.srep_zero H.rk)
  refine ⟨v, a, e1, by simpa using e2, fun f hf => ?_⟩
  rw [← e3 f hf]
  show opSum _ _ _ _ = opSum _ _ _ _
  unfold opSum
  rw [List.map_reverse, List.sum_reverse]

theorem SpaceOk.calcop (h : SpaceOk q N pf H x gen) (mlist : List M22) (hm : ∀ M ∈ mlist, M.det ≠ 0) :
    ∃ (rows : Fin H.rk → SV) (A : Fin H.rk → Fin H.rk → ℤ), H.calcop mlist = some (List.ofFn rows) ∧ (∀ j, SRep True (rows j) (A j)) ∧
      ∀ j, IsCombo q N pf (fun j => modsym (gen j)) (A j) fun f => opSum mlist f (rc (modsym (gen j)).1) (rc (modsym (gen j)).2) := by
  have hc := h.basis.cusp
  choose rows A h1 h2 h3 using fun j => h.applyop mlist hm (hc j).1 (hc j).2
  refine ⟨rows, A, ?_, h2, h3⟩
  unfold Space.calcop
  rw [h.freemods, Option.bind_some]
  apply mapM_ofFn _ _ _ (by simp)
  intro j
  exact ⟨modsym (gen j), by rw [List.getElem?_ofFn, dif_pos j.2], h1 j⟩

end

/-! ### the list of matrices -/

section lists

variable {K : Type*} [Field K] {N pf : ℤ} {f : OnePoint ℚ → OnePoint ℚ → K} {p : ℕ} [hp : Fact p.Prime]

theorem sum_range_zmod (g : ZMod p → K) : ∑ j ∈ Finset.range p, g j = ∑ z, g z := by
  have : NeZero p := ⟨hp.out.ne_zero⟩
  rw [Finset.sum_range]
  refine Fintype.sum_equiv (ZMod.finEquiv p).toEquiv _ _ fun j => ?_
  have e : ((ZMod.finEquiv p) j).val = (j : ℕ) := by
    cases p with
    | zero => exact absurd rfl this.ne
    | succ n => rfl
  rw [← e]
  simp

theorem slash_shift (hf : IsModSym N pf f) {b b' : ℤ} (h : ((b : ℤ) : ZMod p) = b') (α β : OnePoint ℚ) :
    slash 1 b 0 p f α β = slash 1 b' 0 p f α β := by
  have hp0 : (p : ℤ) ≠ 0 := by exact_mod_cast hp.out.ne_zero
  obtain ⟨k, hk⟩ := (ZMod.intCast_eq_intCast_iff_dvd_sub b' b p).1 h.symm
  have := hf.left (a := 1) (b := k) (c := 0) (d := 1) (a' := 1) (b' := b') (c' := 0) (d' := p) (by ring) (by simp)
    (by simpa using hp0) α β
  rw [← this]
  congr 1
  · ring
  · linear_combination hk
  · ring

theorem slash_cast (hf : IsModSym N pf f) (b : ℤ) (α β : OnePoint ℚ) :
    slash 1 b 0 p f α β = slash 1 ((b : ZMod p).val : ℤ) 0 p f α β := by
  have : NeZero p := ⟨hp.out.ne_zero⟩
  exact slash_shift hf (by simp) α β

theorem opSum_hecke (hf : IsModSym N pf f) (α β : OnePoint ℚ) :
    opSum (((List.range p).map fun j : ℕ => (⟨1, (j : ℤ) - (p : ℤ) / 2, 0, p⟩ : M22)) ++ [⟨p, 0, 0, 1⟩]) f α β = heckeT p f α β := by
  have e1 : ∀ b : ℤ, ∑ j ∈ Finset.range p, slash 1 ((j : ℤ) - b) 0 p f α β = ∑ z : ZMod p, slash 1 (z.val : ℤ) 0 p f α β := by
    intro b
    have : ∀ j ∈ Finset.range p, slash 1 ((j : ℤ) - b) 0 p f α β =
        (fun z : ZMod p => slash 1 (((z - (b : ZMod p)).val : ℕ) : ℤ) 0 p f α β) (j : ZMod p) := by
      intro j _
      rw [slash_cast hf]
      simp
    rw [Finset.sum_congr rfl this, sum_range_zmod fun z : ZMod p => slash 1 (((z - (b : ZMod p)).val : ℕ) : ℤ) 0 p f α β]
    exact Equiv.sum_comp (Equiv.subRight (b : ZMod p)) fun z => slash 1 (z.val : ℤ) 0 p f α β
  unfold opSum heckeT
  rw [List.map_append, List.sum_append, List.map_map, add_comm]
  congr 1
  · simp [slash]
  · have h0 := e1 0
    simp only [sub_zero] at h0
    refine Eq.trans ?_ ((e1 ((p : ℤ) / 2)).trans h0.symm)
    rw [Finset.sum_range, ← List.sum_ofFn, List.ofFn_eq_map, ← List.map_coe_finRange_eq_range, List.map_map]
    rfl

theorem hecke_good {N : ℤ} (hpN : ¬(p : ℤ) ∣ N) :
    hecke p N = some (((List.range p).map fun j : ℕ => (⟨1, (j : ℤ) - (p : ℤ) / 2, 0, p⟩ : M22)) ++ [⟨p, 0, 0, 1⟩]) := by
  have hp0 : 0 < p := hp.out.pos
  unfold hecke
  rw [if_neg (fun h : (p : ℤ) = N => hpN (by rw [h])), if_neg (by omega), if_neg (fun h => hpN (Int.dvd_of_tmod_eq_zero h)), Int.toNat_natCast]

/-- `for (u=1, v=n; v%p==0; v/=p, u*=p)` -/
theorem wSplit_spec {p : ℤ} (hp : 1 < p) : ∀ (fuel : ℕ) (u v : ℤ), 0 < v → v < fuel →
    ∃ (e : ℕ) (v' : ℤ), wSplit p fuel u v = some (u * p ^ e, v') ∧ v = p ^ e * v' ∧ ¬p ∣ v' := by
  intro fuel
  induction fuel with
  | zero => intro u v h0 h1; push_cast at h1; omega
  | succ n ih =>
    intro u v h0 h1
    unfold wSplit
    by_cases h : v.tmod p = 0
    · rw [if_pos h]
      obtain ⟨k, rfl⟩ := Int.dvd_of_tmod_eq_zero h
      rw [Int.mul_tdiv_cancel_left _ (by omega)]
      have hk : 0 < k := by
        by_contra hc
        nlinarith
      obtain ⟨e, v', h2, h3, h4⟩ := ih (u * p) k hk (by push_cast at h1; nlinarith)
      refine ⟨e + 1, v', ?_, by rw [h3]; ring, h4⟩
      rw [h2]
      congr 2
      ring
    · rw [if_neg h]
      exact ⟨0, v, by simp, by simp, fun hd => h (Int.tmod_eq_zero_of_dvd hd)⟩

/-- the matrix for a prime dividing the level -/
theorem hecke_bad {N : ℤ} (hN : 1 < N) (hpN : (p : ℤ) ∣ N) :
    ∃ (e : ℕ) (n : ℤ) (M : M22), N = (p : ℤ) ^ e * n ∧ ¬(p : ℤ) ∣ n ∧ hecke p N = some [M] ∧ IsAL N ((p : ℤ) ^ e) M.a M.b M.c M.d := by
  have hp1 : (1 : ℤ) < p := by exact_mod_cast hp.out.one_lt
  obtain ⟨e, n, h1, h2, h3⟩ := wSplit_spec hp1 (N.natAbs + 1) 1 N (by omega) (by omega)
  unfold hecke
  by_cases hpn : (p : ℤ) = N
  · rw [if_pos hpn]
    refine ⟨1, 1, _, by rw [pow_one, mul_one, hpn], ?_, rfl, ?_⟩
    · intro h
      have := Int.le_of_dvd one_pos h
      omega
    · rw [pow_one, hpn]
      exact ⟨by simp, by simp, by simp, by ring⟩
  · rw [if_neg hpn, if_neg (by omega), if_pos (Int.tmod_eq_zero_of_dvd hpN), h1]
    refine ⟨e, n, _, h2, h3, rfl, ?_⟩
    rw [one_mul]
    have hg := Arith.bezout_fst ((p : ℤ) ^ e) n
    have hi := Arith.bezout_identity ((p : ℤ) ^ e) n
    have hcop : IsCoprime ((p : ℤ) ^ e) n :=
      ((Prime.coprime_iff_not_dvd (Nat.prime_iff_prime_int.1 hp.out)).2 h3).pow_left
    rw [Int.isCoprime_iff_gcd_eq_one.1 hcop] at hg
    rw [hg] at hi
    push_cast at hi
    refine ⟨by simp, by simp, by simp, ?_⟩
    simp only
    rw [h2]
    linear_combination ((p : ℤ) ^ e) * hi

end lists

section conj

variable {K : Type*} [Field K] {N pf : ℤ} {f : OnePoint ℚ → OnePoint ℚ → K}

theorem conj_isModSym (hf : IsModSym N pf f) : IsModSym N pf (slash (-1) 0 0 1 f) := by
  refine ⟨fun α β γ => hf.add _ _ _, fun a b c d hd hc α β => ?_, fun hp α β => hf.sign hp _ _⟩
  have h1 : ∀ α, mob (-1) 0 0 1 (mob a b c d α) = mob a (-b) (-c) d (mob (-1) 0 0 1 α) := by
    intro α
    rw [mob_mob _ _ _ _ (by rw [hd]; norm_num), mob_mob _ _ _ _ (by norm_num)]
    congr 1 <;> ring
  unfold slash
  rw [h1, h1, hf.inv _ _ _ _ (by linear_combination hd) hc.neg_right]

theorem conj_value (hN : 0 < N) {φ φ' : ℤ → ℤ → K} (hφ : IsManin N pf φ) (hA : Assoc f φ) (hφ' : IsManin N pf φ')
    (hA' : Assoc (slash (-1) 0 0 1 f) φ') {c d : ℤ} (hu : Unimod N c d) : φ' c d = φ (-c) d := by
  obtain ⟨a, b, c', d', hd, h1, h2⟩ := exists_matrix hN hu
  have hcop : IsCoprime (1 : ℤ) N := isCoprime_one_left
  rw [hφ'.equiv hu ⟨1, hcop, by simpa using h1, by simpa using h2⟩, hA' a b c' d' hd,
    hφ.equiv (um_r hu) (c' := -c') (d' := d') ⟨1, hcop, by
      obtain ⟨k, hk⟩ := h1
      exact ⟨-k, by linear_combination -hk⟩, by simpa using h2⟩, hA a (-b) (-c') d' (by linear_combination hd)]
  unfold slash
  have hb : b ≠ 0 ∨ d' ≠ 0 := by
    by_contra hc
    push Not at hc
    rw [hc.1, hc.2] at hd
    norm_num at hd
  rw [mob_cusp _ _ _ _ hb, mob_cusp _ _ _ _ (ne_of_det hd), ← cusp_neg a]
  congr 2 <;> ring

end conj

/-- **C77.**  `heckeop(p)` is the matrix modulo the prime `q` of the Hecke operator `T_p` for a prime `p` not dividing
the level, and of the involution of Atkin and Lehner for a prime `p` dividing it (with the power `Q` of
`p` exactly dividing the level) and for `p = N`; `conj` is the matrix of `x ↦ -x`. -/
theorem C77_hecke {q : ℕ} [Fact q.Prime] {N : ℤ} (hN : 1 < N) {ps : List ℤ} (hps : Spec.IsPrimeDivisorList N ps)
    {S : Symbdata} (hS : Symbdata.make N ps = some S) {pf : ℤ} (hpf : pf = 0 ∨ pf = 1 ∨ pf = -1) (hq : 3 < q)
    (X : Marith.XGcd) (t : T) {sparse : Elim.St → Bool} (hsp : SparseOk sparse) {rref : Mat.M → Mat.Ech}
    (hRr : RrefOk q rref) {fuel : ℕ} (hf : (S.nsymb.toNat + 11) * (2 * S.nsymb.toNat + 11) ≤ fuel) :
    ∃ H th, make X t q sparse rref fuel S pf = some (H, th) ∧ ∃ m : Fin H.rk → R × R,
      H.freemods = some (List.ofFn m) ∧ IsBasis q N pf m ∧
      (∀ p : ℕ, p.Prime → ¬(p : ℤ) ∣ N → ∃ rows A, H.heckeop p = some (List.ofFn rows) ∧ (∀ j, SRep True (rows j) (A j)) ∧
        IsMatOf q N pf m A (heckeT p)) ∧
      (∀ p : ℕ, p.Prime → (p : ℤ) ∣ N → ∃ (e : ℕ) (n : ℤ), N = (p : ℤ) ^ e * n ∧ ¬(p : ℤ) ∣ n ∧
        (∃ a b c d, IsAL N ((p : ℤ) ^ e) a b c d) ∧
        ∃ rows A, H.heckeop p = some (List.ofFn rows) ∧ (∀ j, SRep True (rows j) (A j)) ∧
          ∀ a b c d, IsAL N ((p : ℤ) ^ e) a b c d → IsMatOf q N pf m A (slash a b c d)) ∧
      (∃ rows A, H.heckeop N = some (List.ofFn rows) ∧ (∀ j, SRep True (rows j) (A j)) ∧
        IsMatOf q N pf m A (slash 0 (-1) N 0)) ∧
      ∃ cols A, H.conj = some (List.ofFn cols) ∧ (∀ j, SRep True (cols j) (A j)) ∧
        IsMatOf q N pf m A (slash (-1) 0 0 1) := by
  obtain ⟨H, th, e, x, gen, h⟩ := SpaceOk.of_make hN hps hS hpf hq X t hsp hRr hf
  have hN0 : (0 : ℤ) < N := by omega
  refine ⟨H, th, e, _, h.freemods, h.basis, ?_, ?_, ?_, ?_⟩
  · intro p hp hpN
    have : Fact p.Prime := ⟨hp⟩
    have hp0 : (p : ℤ) ≠ 0 := by exact_mod_cast hp.ne_zero
    have hcop : IsCoprime (p : ℤ) N := (Prime.coprime_iff_not_dvd (Nat.prime_iff_prime_int.1 hp)).2 hpN
    obtain ⟨rows, A, h1, h2, h3⟩ := h.calcop
      (((List.range p).map fun j : ℕ => (⟨1, (j : ℤ) - (p : ℤ) / 2, 0, p⟩ : M22)) ++ [⟨p, 0, 0, 1⟩]) (by
      intro M hM
      rcases List.mem_append.1 hM with hM | hM
      · obtain ⟨j, -, rfl⟩ := List.mem_map.1 hM
        simpa [M22.det] using hp0
      · obtain rfl := List.mem_singleton.1 hM
        simpa [M22.det] using hp0)
    refine ⟨rows, A, ?_, h2, fun f hf => ⟨heckeT_isModSym hf hcop, fun j => ?_⟩⟩
    · unfold Space.heckeop
      rw [h.level, hecke_good (p := p) hpN, Option.bind_some]
      exact h1
    · rw [← opSum_hecke hf]
      exact h3 j f hf
  · intro p hp hpN
    have : Fact p.Prime := ⟨hp⟩
    obtain ⟨e, n, M, k1, k2, k3, k4⟩ := hecke_bad (p := p) hN hpN
    have hQ : (p : ℤ) ^ e ≠ 0 := pow_ne_zero _ (by exact_mod_cast hp.ne_zero)
    have hQN : (p : ℤ) ^ e ∣ N := ⟨n, k1⟩
    obtain ⟨rows, A, h1, h2, h3⟩ := h.calcop [M] (by
      intro M' hM
      obtain rfl := List.mem_singleton.1 hM
      unfold M22.det
      rw [k4.2.2.2]
      exact hQ)
    refine ⟨e, n, k1, k2, ⟨_, _, _, _, k4⟩, rows, A, ?_, h2, fun a b c d hal f hf => ⟨al_isModSym hf hQ hQN hal, fun j => ?_⟩⟩
    · unfold Space.heckeop
      rw [h.level, k3, Option.bind_some]
      exact h1
    · rw [al_unique hf hQ hQN k4 hal]
      have := h3 j f hf
      simpa [opSum] using this
  · have hal : IsAL N N 0 (-1) N 0 := ⟨by simp, by simp, by simp, by ring⟩
    obtain ⟨rows, A, h1, h2, h3⟩ := h.calcop [⟨0, -1, N, 0⟩] (by
      intro M' hM
      obtain rfl := List.mem_singleton.1 hM
      unfold M22.det
      simp only
      omega)
    refine ⟨rows, A, ?_, h2, fun f hf => ⟨al_isModSym hf hN0.ne' dvd_rfl hal, fun j => ?_⟩⟩
    · unfold Space.heckeop hecke
      rw [h.level, if_pos rfl, Option.bind_some]
      exact h1
    · have := h3 j f hf
      simpa [opSum] using this
  · choose cols h1 h2 using fun j => h.cd (um_r (h.coords.unimod j))
    refine ⟨cols, _, ?_, h2, fun f hf => ⟨?_, fun j => ?_⟩⟩
    · unfold Space.conj
      apply mapM_ofFn _ _ _ h.len
      intro j
      obtain ⟨i, e1, e2⟩ := h.free j
      exact ⟨i, e1, by rw [e2]; exact h1 j⟩
    · exact conj_isModSym hf
    · obtain ⟨φ, hφ, hA⟩ := exists_manin hN0 hf
      obtain ⟨φ', hφ', hA'⟩ := exists_manin hN0 (conj_isModSym hf)
      rw [← h.value hφ hA (um_r (h.coords.unimod j)), ← (modsym_spec hφ' hA' h.lev (h.coords.unimod j)).2.2]
      exact conj_value hN0 hφ hA hφ' hA' (h.coords.unimod j)

/-! ### examples -/

/-- the hypotheses are met at the level 11 -/
example : ∃ S H th rows, Symbdata.make 11 [11] = some S ∧
    make Marith.Props.xgcd0 .int (1073741789 : ℕ) (fun _ => true) (Mat.echmodp Marith.Props.xgcd0 .int (1073741789 : ℕ))
      ((S.nsymb.toNat + 11) * (2 * S.nsymb.toNat + 11)) S 1 = some (H, th) ∧
    H.heckeop (2 : ℕ) = some rows ∧ rows.length = H.rk := by
  have : Fact (Nat.Prime 1073741789) := ⟨Xmod.Props.P_prime⟩
  obtain ⟨S, hS, _⟩ := Symb.specials_spec (by norm_num) ps11
  obtain ⟨H, th, h, m, h1, h2, h3, _⟩ := C77_hecke (q := 1073741789) (by norm_num) ps11 hS (pf := 1) (by norm_num) (by norm_num)
    Marith.Props.xgcd0 .int (sparse := fun _ => true) (fun _ _ => rfl) (Elim.rrefOk_echmodp _ .int) le_rfl
  obtain ⟨rows, A, h4, _⟩ := h3 2 (by norm_num) (by norm_num)
  exact ⟨S, H, th, _, hS, h, h4, by simp⟩

/-- `T_2` at level 11: the eigenvalues are 3 and twice -2 -/
example : (ex11.bind fun H => H.heckeop 2) =
    some [⟨3, [(1, 3), (2, -1), (3, 1)]⟩, ⟨3, [(2, -2)]⟩, ⟨3, [(3, -2)]⟩] := by decide +kernel

/-- `W_11` -/
example : (ex11.bind fun H => H.heckeop 11) = some [⟨3, [(1, -1)]⟩, ⟨3, [(2, -1)]⟩, ⟨3, [(3, -1)]⟩] := by decide +kernel

/-- the conjugation -/
example : (ex11.bind fun H => H.conj) = some [⟨3, [(1, 1)]⟩, ⟨3, [(3, -1)]⟩, ⟨3, [(2, -1)]⟩] := by decide +kernel

/-- the matrix for 2 at level 12 -/
example : hecke 2 12 = some [⟨4, 1, 12, 4⟩] := by decide +kernel

end Eclib.Hom
