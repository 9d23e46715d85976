import Verif.Hom.Bdry

/-!
# C82: operators on the cuspidal subspace
-/

set_option linter.unusedSectionVars false

namespace Eclib.Hom

open Ratl (R)
open Symb (Symbdata cneg)
open Symb.SymbSpec Symb.CuspSpec ManinSpec
open Svec (T SV)
open Smat.Props (SRep)
open Smat (Rep)
open Elim (RrefOk SparseOk mq InSpan SubOk)
open Matrix

variable {q : ℕ} [hqf : Fact q.Prime] {N pf : ℤ} {H : Space} {x : ℤ → ℤ → Fin H.rk → ℤ} {gen : Fin H.rk → ℤ × ℤ}

/-! ### the boundary commutes with the operators -/

/-- the coboundary of a function on cusps -/
theorem bdry_modSym {K : Type*} [Field K] {g : OnePoint ℚ → K} (hg : IsBdry N pf g) : IsModSym N pf fun α β => g β - g α := by
  refine ⟨fun α β γ => by ring, fun a b c d hd hc α β => ?_, fun hp α β => ?_⟩
  · rw [hg.inv a b c d hd hc, hg.inv a b c d hd hc]
  · rw [hg.sign hp, hg.sign hp]; ring

theorem bdry_inv {K : Type*} [Field K] {g : OnePoint ℚ → K} (hg : IsBdry N pf g) : IsInv N pf fun _ β => g β :=
  ⟨fun a b c d hd hc _ β => hg.inv a b c d hd hc β, fun hp _ β => hg.sign hp β⟩

/-- an operator maps the coboundary of a function on cusps to the coboundary of a function on cusps -/
theorem op_bdry {K : Type*} [Field K] {F : (OnePoint ℚ → OnePoint ℚ → K) → OnePoint ℚ → OnePoint ℚ → K} (hF : IsOp N F)
    {g : OnePoint ℚ → K} (hg : IsBdry N pf g) :
    ∃ g', IsBdry N pf g' ∧ ∀ α β, F (fun α β => g β - g α) α β = g' β - g' α := by
  have of_inv : ∀ g' : OnePoint ℚ → K, IsInv N pf (fun _ β => g' β) → IsBdry N pf g' := fun g' h =>
    ⟨fun a b c d hd hc α => h.inv a b c d hd hc α α, fun hp α => h.sign hp α α⟩
  cases hF with
  | @hecke p hp hpN =>
    have : Fact p.Prime := ⟨hp⟩
    have hcop : IsCoprime (p : ℤ) N := (Prime.coprime_iff_not_dvd (Nat.prime_iff_prime_int.1 hp)).2 hpN
    refine ⟨fun β => g (mob p 0 0 1 β) + ∑ j ∈ Finset.range p, g (mob 1 j 0 p β), of_inv _ (heckeT_isInv (bdry_inv hg) hcop), ?_⟩
    intro α β
    unfold heckeT
    rw [Finset.sum_sub_distrib]
    ring
  | @al Q a b c d hQ hQN h =>
    exact ⟨fun β => g (mob a b c d β), of_inv _ (al_isInv (bdry_inv hg) hQ hQN h), fun α β => rfl⟩
  | conj =>
    refine ⟨fun β => g (mob (-1) 0 0 1 β), ⟨fun a b c d hd hc α => ?_, fun hp α => hg.sign hp _⟩, fun α β => rfl⟩
    rw [conj_mob hd, hg.inv _ _ _ _ (by linear_combination hd) hc.neg_right]

/-- the cuspidal subspace is invariant -/
theorem cuspidal_invariant {k : ℕ} {m : Fin k → R × R} {A : Fin k → Fin k → ℤ}
    {F : (OnePoint ℚ → OnePoint ℚ → ZMod q) → OnePoint ℚ → OnePoint ℚ → ZMod q} (hA : IsMatOf q N pf m A F) (hF : IsOp N F)
    {v : Fin k → ZMod q} (hv : IsCuspidal q N pf m v) : IsCuspidal q N pf m (mq q (Matrix.of A)ᵀ *ᵥ v) := by
  intro g hg
  obtain ⟨g', hg', e⟩ := op_bdry hF hg
  have h1 := (hA _ (bdry_modSym hg)).2
  have h2 := hv g' hg'
  have h3 : ∀ j, v j * (g' (rc (m j).2) - g' (rc (m j).1)) = ∑ i, ((A j i : ℤ) : ZMod q) * v j * (g (rc (m i).2) - g (rc (m i).1)) := by
    intro j
    rw [← e, h1 j, Finset.mul_sum]
    apply Finset.sum_congr rfl
    intro i _
    ring
  rw [Finset.sum_congr rfl fun j _ => h3 j, Finset.sum_comm] at h2
  rw [← h2]
  apply Finset.sum_congr rfl
  intro i _
  rw [← Finset.sum_mul]
  rfl

/-! ### the rows needed -/

theorem needed_spec {s : Elim.SSub} {n k : ℕ} {B : Matrix (Fin n) (Fin k) ℤ} (hB : Rep True s.basis B) (j : Fin n) :
    ∃ b, needed s j = some b ∧ (b = false → ∀ l, B j l = 0) := by
  obtain ⟨v, e1, h1⟩ := Smat.Props.C47_row hB j
  obtain ⟨l, e2, h2, h3⟩ := Svec.Props.C15_asVec v h1.wf
  refine ⟨l.any (· ≠ 0), ?_, fun h i => ?_⟩
  · unfold needed
    rw [e1, Option.bind_some, e2, Option.map_some]
  · have hi : (i : ℕ) < l.length := by rw [h2, h1.dim]; exact i.2
    have h4 : l.getD i 0 = B j i := by
      rw [h3 i (by rw [h1.dim]; exact i.2), h1.val i]
    rw [← h4, List.getD_eq_getElem _ _ hi]
    rw [List.any_eq_false] at h
    simpa using h _ (List.getElem_mem hi)

theorem mapM_inv {α β : Type*} {g : α → Option β} {l : List α} {l' : List β} (h : l.mapM g = some l') {i : ℕ} {a : α} {b : β}
    (ha : l[i]? = some a) (hb : l'[i]? = some b) : g a = some b := by
  induction l generalizing l' i with
  | nil => simp at ha
  | cons c l ih =>
    rw [List.mapM_cons] at h
    obtain ⟨d, h1, h⟩ := Option.bind_eq_some_iff.1 h
    obtain ⟨l1, h2, h⟩ := Option.bind_eq_some_iff.1 h
    obtain rfl : d :: l1 = l' := Option.some.inj h
    cases i with
    | zero =>
      simp only [List.getElem?_cons_zero, Option.some.injEq] at ha hb
      rw [← ha, ← hb, h1]
    | succ i =>
      rw [List.getElem?_cons_succ] at ha hb
      exact ih h2 ha hb

theorem SpaceOk.neededRows (h : SpaceOk q N pf H x gen) {mlist : List M22} {rows : Fin H.rk → SV} {A : Fin H.rk → Fin H.rk → ℤ}
    (e : H.calcop mlist = some (List.ofFn rows)) (hA : ∀ j, SRep True (rows j) (A j)) {s : Elim.SSub} {k : ℕ}
    {B : Matrix (Fin H.rk) (Fin k) ℤ} (hB : Rep True s.basis B) :
    ∃ M, ∃ A' : Matrix (Fin H.rk) (Fin H.rk) ℤ, H.neededRows s mlist = some M ∧ Rep True M A' ∧
      ∀ j, A' j = A j ∨ (A' j = 0 ∧ ∀ l, B j l = 0) := by
  have hap : ∀ j, H.applyop mlist (modsym (gen j)) = some (rows j) := by
    intro j
    unfold Space.calcop at e
    rw [h.freemods, Option.bind_some] at e
    exact mapM_inv e (i := j) (by simp) (by simp)
  choose b b1 b2 using needed_spec hB
  obtain ⟨M, e1, h1⟩ := foldlM_zipIdx (fun j => modsym (gen j))
    (fun m x => (needed s x.2).bind fun b => if b then (H.applyop mlist x.1).bind fun v => Smat.setrow m (x.2 + 1) v else some m)
    (fun k M => Rep True M (Matrix.of fun j => if (j : ℕ) < k ∧ b j = true then A j else 0))
    (by
      intro j M hM
      simp only
      rw [b1 j, Option.bind_some]
      cases hb : b j with
      | true =>
        obtain ⟨M', e2, h2⟩ := Smat.Props.C47_setrow hM j (hA j)
        refine ⟨M', by rw [if_pos rfl, hap j, Option.bind_some, e2], ?_⟩
        convert h2 using 1
        ext i l
        simp only [Matrix.of_apply, Matrix.updateRow_apply]
        by_cases hij : i = j
        · subst hij
          simp [hb]
        · have : (i : ℕ) ≠ j := fun e => hij (Fin.ext e)
          rw [if_neg hij]
          simp only [show ((i : ℕ) < (j : ℕ) + 1) ↔ (i : ℕ) < j by omega]
      | false =>
        refine ⟨M, rfl, ?_⟩
        convert hM using 1
        ext i l
        simp only [Matrix.of_apply]
        by_cases hij : i = j
        · subst hij
          simp [hb]
        · have : (i : ℕ) ≠ j := fun e => hij (Fin.ext e)
          simp only [show ((i : ℕ) < (j : ℕ) + 1) ↔ (i : ℕ) < j by omega])
    (s0 := Smat.new H.rk H.rk) (by
      convert Smat.Props.C47_new H.rk H.rk using 1
      ext i l
      simp)
  refine ⟨M, _, ?_, h1, fun j => ?_⟩
  · unfold Space.neededRows
    rw [h.freemods, Option.bind_some, e1]
  · cases hb : b j with
    | true => left; funext i; simp [Matrix.of_apply, hb]
    | false => right; exact ⟨by funext i; simp [Matrix.of_apply, hb], b2 j hb⟩

theorem SpaceOk.calcopCusp (h : SpaceOk q N pf H x gen) (t : T) {mlist : List M22} {rows : Fin H.rk → SV} {A : Fin H.rk → Fin H.rk → ℤ}
    (e : H.calcop mlist = some (List.ofFn rows)) (hA : ∀ j, SRep True (rows j) (A j)) (hred : ∀ j i, Svec.Props.Red t q (A j i))
    {F : (OnePoint ℚ → OnePoint ℚ → ZMod q) → OnePoint ℚ → OnePoint ℚ → ZMod q}
    (hM : IsMatOf q N pf (fun j => modsym (gen j)) A F) (hF : IsOp N F) {s : Elim.SSub} {k : ℕ}
    {B : Matrix (Fin H.rk) (Fin k) ℤ} {piv : Fin k → Fin H.rk} (hs : SubOk q s B piv)
    (hk : ∀ v, InSpan q B v ↔ IsCuspidal q N pf (fun j => modsym (gen j)) v) :
    ∃ M, ∃ A' : Matrix (Fin k) (Fin k) ℤ, H.calcopCusp t s mlist = some M ∧ Rep True M A' ∧ (∀ i j, Smat.Props.Least q (A' i j)) ∧
      mq q (Matrix.of A)ᵀ * mq q B = mq q B * mq q A' := by
  obtain ⟨M0, A0, e1, h1, h2⟩ := h.neededRows e hA hs.rep
  obtain ⟨M1, e2, h3⟩ := Smat.Props.C47_transpose h1
  have hmul : mq q A0ᵀ * mq q B = mq q (Matrix.of A)ᵀ * mq q B := by
    ext i l
    rw [Matrix.mul_apply, Matrix.mul_apply]
    apply Finset.sum_congr rfl
    intro j _
    rcases h2 j with h4 | ⟨-, h4⟩
    · simp [mq, h4]
    · simp [mq, h4]
  obtain ⟨M, A', e3, h4, h5, h6⟩ := Elim.C73_restrict_mat t h3 (by
    intro i j
    rw [Matrix.transpose_apply]
    rcases h2 j with h4 | ⟨h4, -⟩
    · rw [h4]; exact hred j i
    · rw [h4]; exact Elim.red_of_abs (by simpa using hqf.out.pos)) hs (by
    rintro v ⟨y, rfl⟩
    have : mq q A0ᵀ *ᵥ (mq q B *ᵥ y) = mq q (Matrix.of A)ᵀ *ᵥ (mq q B *ᵥ y) := by
      rw [Matrix.mulVec_mulVec, Matrix.mulVec_mulVec, hmul]
    rw [this, hk]
    exact cuspidal_invariant hM hF ((hk _).1 ⟨y, rfl⟩))
  refine ⟨M, A', ?_, h4, h5, by rw [← hmul, h6]⟩
  unfold Space.calcopCusp
  rw [e1, Option.bind_some, e2, Option.bind_some, e3]

theorem SpaceOk.calcopRestricted (h : SpaceOk q N pf H x gen) (t : T) {mlist : List M22} {rows : Fin H.rk → SV} {A : Fin H.rk → Fin H.rk → ℤ}
    (e : H.calcop mlist = some (List.ofFn rows)) (hA : ∀ j, SRep True (rows j) (A j)) {s : Elim.SSub} {k : ℕ}
    {B : Matrix (Fin H.rk) (Fin k) ℤ} {piv : Fin k → Fin H.rk} (hs : SubOk q s B piv)
    (hred : ∀ j i, Svec.Props.Red t q (A (piv j) i)) (hinv : Elim.Invariant q (Matrix.of A) B) :
    ∃ M, ∃ A' : Matrix (Fin k) (Fin k) ℤ, H.calcopRestricted t q mlist s = some M ∧ Rep True M A' ∧
      (∀ i j, Smat.Props.Least q (A' i j)) ∧ mq q (Matrix.of A) * mq q B = mq q B * mq q A' := by
  have hp : (q : ℤ) ≠ 0 := by exact_mod_cast hqf.out.ne_zero
  have hap : ∀ j, H.applyop mlist (modsym (gen j)) = some (rows j) := by
    intro j
    unfold Space.calcop at e
    rw [h.freemods, Option.bind_some] at e
    exact mapM_inv e (i := j) (by simp) (by simp)
  obtain ⟨M0, e1, h1⟩ := foldlM_zipIdx (fun j => (piv j : ℕ) + 1)
    (fun m x => if x.1 = 0 then none else ((List.ofFn fun j => modsym (gen j))[x.1 - 1]?).bind fun mm =>
      (H.applyop mlist mm).bind fun v => Smat.setrow m (x.2 + 1) v)
    (fun l M => Rep True M (Matrix.of fun j : Fin k => if (j : ℕ) < l then A (piv j) else 0))
    (by
      intro j M hM
      simp only
      obtain ⟨M', e2, h2⟩ := Smat.Props.C47_setrow hM j (hA (piv j))
      refine ⟨M', ?_, ?_⟩
      · rw [if_neg (by omega), Nat.add_sub_cancel, List.getElem?_eq_getElem (by simp), Option.bind_some]
        simp only [List.getElem_ofFn]
        rw [hap, Option.bind_some, e2]
      · convert h2 using 1
        ext i l
        simp only [Matrix.of_apply, Matrix.updateRow_apply]
        by_cases hij : i = j
        · subst hij
          simp
        · have : (i : ℕ) ≠ j := fun e => hij (Fin.ext e)
          rw [if_neg hij]
          simp only [show ((i : ℕ) < (j : ℕ) + 1) ↔ (i : ℕ) < j by omega])
    (s0 := Smat.new k H.rk) (by
      convert Smat.Props.C47_new k H.rk using 1
      ext i l
      simp)
  simp only [Fin.is_lt, if_true] at h1
  obtain ⟨M, C, e3, hC, hc⟩ := Smat.Props.C47_mulMod t (q : ℤ) hp h1 hs.rep (Elim.redMat_of_val h1 fun i j => hred i j)
    (Elim.redMat_of_val hs.rep fun i j => Elim.red_of_abs (Elim.least_abs (hs.least i j)))
  refine ⟨M, C, ?_, hC, fun i j => (hc i j).2, ?_⟩
  · unfold Space.calcopRestricted
    rw [h.freemods, Option.bind_some, hs.pivots, List.length_ofFn, e1, Option.bind_some, e3]
  · have key : ∀ j : Fin k, ∃ y : Fin k → ZMod q, mq q (Matrix.of A) *ᵥ (mq q B).col j = mq q B *ᵥ y := fun j =>
      hinv _ ⟨Pi.single j 1, by rw [mulVec_single_one]⟩
    choose y hy using key
    have hM : mq q (Matrix.of A) * mq q B = mq q B * Matrix.of fun i j => y j i := by
      ext i j
      exact congrFun (hy j) i
    have h2 := Mat.Props.restrict_core (d := (1 : ZMod q)) (by rw [hs.unit, one_smul]) hM
    rw [one_smul] at h2
    rw [Elim.mq_of_cong (fun i j => (hc i j).1), Elim.mq_mul, h2]
    rfl

/-! ### the theorems -/

/-- **C81.**  For a space computed modulo a prime `q > 3`, the matrix of the boundary map is computed, and its
kernel `kern` is the cuspidal subspace: a combination `∑ v_j {α_j, β_j}` of the free generators belongs to
`kern` exactly when its boundary `∑ v_j ([β_j] - [α_j])` is zero in the space of cusps modulo `Γ₀(N)` (and
modulo `[-x] = ±[x]` for the spaces with sign). -/
theorem C81_kern {q : ℕ} [Fact q.Prime] {N : ℤ} (hN : 1 < N) {ps : List ℤ} (hps : Spec.IsPrimeDivisorList N ps)
    {S : Symbdata} (hS : Symbdata.make N ps = some S) {pf : ℤ} (hpf : pf = 0 ∨ pf = 1 ∨ pf = -1) (hq : 3 < q)
    (X : Marith.XGcd) (t : T) {sparse : Elim.St → Bool} (hsp : SparseOk sparse) {rref : Mat.M → Mat.Ech}
    (hRr : RrefOk q rref) {fuel : ℕ} (hf : (S.nsymb.toNat + 11) * (2 * S.nsymb.toNat + 11) ≤ fuel) :
    ∃ H th, make X t q sparse rref fuel S pf = some (H, th) ∧ ∃ m : Fin H.rk → R × R,
      H.freemods = some (List.ofFn m) ∧ IsBasis q N pf m ∧
      ∀ fuel', (2 * H.rk + 1) * (3 * H.rk + 1) ≤ fuel' →
      ∃ s k, ∃ (B : Matrix (Fin H.rk) (Fin k) ℤ) (piv : Fin k → Fin H.rk), H.kern X t q sparse rref fuel' = some s ∧
        SubOk q s B piv ∧ ∀ v, InSpan q B v ↔ IsCuspidal q N pf m v := by
  obtain ⟨H, th, e, x, gen, h⟩ := SpaceOk.of_make hN hps hS hpf hq X t hsp hRr hf
  exact ⟨H, th, e, _, h.freemods, h.basis, fun fuel' hf' => h.kern hq hpf X t hsp hRr hf'⟩

/-- **C82.**  For a cuspidal space, `heckeop(p)`, computed with only the rows of the generators which occur in the
basis of `kern`, is the matrix of `T_p` (of the involution of Atkin and Lehner for `p` dividing the level and for
`p = N`) on the cuspidal subspace: with `A` the matrix on the whole space, whose action on coordinates of
homology classes is by the transpose, `Aᵀ B = B A'`.  The entries of `A` must be reduced if the scalars are
`int` and `q` is the large prime for which multiplication is done without division. -/
theorem C82_heckeop {q : ℕ} [Fact q.Prime] {N : ℤ} (hN : 1 < N) {ps : List ℤ} (hps : Spec.IsPrimeDivisorList N ps)
    {S : Symbdata} (hS : Symbdata.make N ps = some S) {pf : ℤ} (hpf : pf = 0 ∨ pf = 1 ∨ pf = -1) (hq : 3 < q)
    (X : Marith.XGcd) (t : T) {sparse : Elim.St → Bool} (hsp : SparseOk sparse) {rref : Mat.M → Mat.Ech}
    (hRr : RrefOk q rref) {fuel : ℕ} (hf : (S.nsymb.toNat + 11) * (2 * S.nsymb.toNat + 11) ≤ fuel) :
    ∃ H th, make X t q sparse rref fuel S pf = some (H, th) ∧ ∃ m : Fin H.rk → R × R,
      H.freemods = some (List.ofFn m) ∧ IsBasis q N pf m ∧
      ∀ fuel', (2 * H.rk + 1) * (3 * H.rk + 1) ≤ fuel' →
      ∃ s k, ∃ (B : Matrix (Fin H.rk) (Fin k) ℤ) (piv : Fin k → Fin H.rk), H.kern X t q sparse rref fuel' = some s ∧
        SubOk q s B piv ∧ (∀ v, InSpan q B v ↔ IsCuspidal q N pf m v) ∧
        ∀ n : ℤ, (n = N ∨ ∃ p : ℕ, p.Prime ∧ n = p) → ∃ (A : Fin H.rk → Fin H.rk → ℤ)
          (F : (OnePoint ℚ → OnePoint ℚ → ZMod q) → OnePoint ℚ → OnePoint ℚ → ZMod q),
          IsMatOf q N pf m A F ∧ IsOp N F ∧ (∀ p : ℕ, n = p → p.Prime → ¬n ∣ N → F = heckeT p) ∧
          (∃ rows, H.heckeop n = some (List.ofFn rows) ∧ ∀ j, SRep True (rows j) (A j)) ∧
          ((∀ i j, Svec.Props.Red t q (A i j)) →
            ∃ M, ∃ A' : Matrix (Fin k) (Fin k) ℤ, H.heckeopCusp t s n = some M ∧ Rep True M A' ∧
              (∀ i j, Smat.Props.Least q (A' i j)) ∧ mq q (Matrix.of A)ᵀ * mq q B = mq q B * mq q A') := by
  obtain ⟨H, th, e, x, gen, h⟩ := SpaceOk.of_make hN hps hS hpf hq X t hsp hRr hf
  refine ⟨H, th, e, _, h.freemods, h.basis, fun fuel' hf' => ?_⟩
  obtain ⟨s, k, B, piv, e1, h1, h2⟩ := h.kern hq hpf X t hsp hRr hf'
  refine ⟨s, k, B, piv, e1, h1, h2, fun n hn => ?_⟩
  obtain ⟨H', th', e', m, hm, hb, k1, k2, k3, -⟩ := C77_hecke hN hps hS hpf hq X t hsp hRr hf
  rw [e] at e'
  obtain ⟨rfl, rfl⟩ := Prod.mk.inj (Option.some.inj e')
  rw [h.freemods] at hm
  obtain rfl := List.ofFn_injective (Option.some.inj hm)
  have key : ∃ (rows : Fin H.rk → SV) (A : Fin H.rk → Fin H.rk → ℤ)
      (F : (OnePoint ℚ → OnePoint ℚ → ZMod q) → OnePoint ℚ → OnePoint ℚ → ZMod q),
      H.heckeop n = some (List.ofFn rows) ∧ (∀ j, SRep True (rows j) (A j)) ∧
      IsMatOf q N pf (fun j => modsym (gen j)) A F ∧ IsOp N F ∧ (∀ p : ℕ, n = p → p.Prime → ¬n ∣ N → F = heckeT p) := by
    rcases hn with rfl | ⟨p, hp, rfl⟩
    · obtain ⟨rows, A, j1, j2, j3⟩ := k3
      exact ⟨rows, A, _, j1, j2, j3, .al (by omega) dvd_rfl ⟨by simp, by simp, by simp, by ring⟩, fun p _ _ hd => absurd dvd_rfl hd⟩
    · by_cases hpN : (p : ℤ) ∣ N
      · obtain ⟨e, n, j1, -, ⟨a, b, c, d, j3⟩, rows, A, j4, j5, j6⟩ := k2 p hp hpN
        exact ⟨rows, A, _, j4, j5, j6 a b c d j3, .al (pow_ne_zero _ (by exact_mod_cast hp.ne_zero)) ⟨n, j1⟩ j3,
          fun p' _ _ hd => absurd hpN hd⟩
      · obtain ⟨rows, A, j4, j5, j6⟩ := k1 p hp hpN
        refine ⟨rows, A, _, j4, j5, j6, .hecke hp hpN, fun p' hp' _ _ => ?_⟩
        obtain rfl : p = p' := by exact_mod_cast hp'
        rfl
  obtain ⟨rows, A, F, j1, j2, j3, j4, j5⟩ := key
  refine ⟨A, F, j3, j4, j5, ⟨rows, j1, j2⟩, fun hred => ?_⟩
  unfold Space.heckeop at j1
  obtain ⟨mlist, j6, j7⟩ := Option.bind_eq_some_iff.1 j1
  obtain ⟨M, A', j8, j9⟩ := h.calcopCusp t j7 j2 hred j3 j4 h1 h2
  exact ⟨M, A', by unfold Space.heckeopCusp; rw [j6, Option.bind_some, j8], j9⟩

/-- **C82 (restriction).**  `heckeop_restricted(p,s)` for a subspace `s` of the dual space (of values of modular
symbols) invariant under the operator: only the images of the generators at the pivots of `s` are computed, and
the result is the matrix `A'` of the restriction, `A B = B A'`. -/
theorem C82_restricted {q : ℕ} [Fact q.Prime] {N : ℤ} (hN : 1 < N) {ps : List ℤ} (hps : Spec.IsPrimeDivisorList N ps)
    {S : Symbdata} (hS : Symbdata.make N ps = some S) {pf : ℤ} (hpf : pf = 0 ∨ pf = 1 ∨ pf = -1) (hq : 3 < q)
    (X : Marith.XGcd) (t : T) {sparse : Elim.St → Bool} (hsp : SparseOk sparse) {rref : Mat.M → Mat.Ech}
    (hRr : RrefOk q rref) {fuel : ℕ} (hf : (S.nsymb.toNat + 11) * (2 * S.nsymb.toNat + 11) ≤ fuel) :
    ∃ H th, make X t q sparse rref fuel S pf = some (H, th) ∧
      ∀ (n : ℤ) (rows : Fin H.rk → SV) (A : Fin H.rk → Fin H.rk → ℤ), H.heckeop n = some (List.ofFn rows) →
        (∀ j, SRep True (rows j) (A j)) → ∀ (s : Elim.SSub) (k : ℕ) (B : Matrix (Fin H.rk) (Fin k) ℤ) (piv : Fin k → Fin H.rk),
        SubOk q s B piv → (∀ j i, Svec.Props.Red t q (A (piv j) i)) → Elim.Invariant q (Matrix.of A) B →
        ∃ M, ∃ A' : Matrix (Fin k) (Fin k) ℤ, H.heckeopRestricted t q n s = some M ∧ Rep True M A' ∧
          (∀ i j, Smat.Props.Least q (A' i j)) ∧ mq q (Matrix.of A) * mq q B = mq q B * mq q A' := by
  obtain ⟨H, th, e, x, gen, h⟩ := SpaceOk.of_make hN hps hS hpf hq X t hsp hRr hf
  refine ⟨H, th, e, fun n rows A e1 hA s k B piv hs hred hinv => ?_⟩
  unfold Space.heckeop at e1
  obtain ⟨mlist, j6, j7⟩ := Option.bind_eq_some_iff.1 e1
  obtain ⟨M, A', j8, j9⟩ := h.calcopRestricted t j7 hA hs hred hinv
  exact ⟨M, A', by unfold Space.heckeopRestricted; rw [j6, Option.bind_some, j8], j9⟩

/-! ### examples -/

/-- the hypotheses are met at the level 11 -/
example : ∃ S H th s, Symbdata.make 11 [11] = some S ∧
    make Marith.Props.xgcd0 .int (1073741789 : ℕ) (fun _ => true) (Mat.echmodp Marith.Props.xgcd0 .int (1073741789 : ℕ))
      ((S.nsymb.toNat + 11) * (2 * S.nsymb.toNat + 11)) S 0 = some (H, th) ∧
    H.kern Marith.Props.xgcd0 .int (1073741789 : ℕ) (fun _ => true) (Mat.echmodp Marith.Props.xgcd0 .int (1073741789 : ℕ))
      ((2 * H.rk + 1) * (3 * H.rk + 1)) = some s := by
  have : Fact (Nat.Prime 1073741789) := ⟨Xmod.Props.P_prime⟩
  obtain ⟨S, hS, _⟩ := Symb.specials_spec (by norm_num) ps11
  obtain ⟨H, th, h, m, -, -, h1⟩ := C82_heckeop (q := 1073741789) (by norm_num) ps11 hS (pf := 0) (by norm_num) (by norm_num)
    Marith.Props.xgcd0 .int (sparse := fun _ => true) (fun _ _ => rfl) (Elim.rrefOk_echmodp _ .int) le_rfl
  obtain ⟨s, k, B, piv, h2, -⟩ := h1 _ le_rfl
  exact ⟨S, H, th, s, hS, h, h2⟩

/-- at level 11 there are two cusps; the boundary of the first generator `{0,∞}` is not zero -/
example : (ex11.bind Space.delta) = some ⟨3, [[1, 0, 0], [-1, 0, 0]]⟩ := by decide +kernel

/-- the space of level 18 with sign `-1` modulo 7: of the eight classes of cusps those equivalent to their
negatives are left out -/
example : ((((Symbdata.make 18 [2, 3]).bind fun S =>
    make Marith.Props.xgcd0 .int 7 (fun _ => true) (Mat.echmodp Marith.Props.xgcd0 .int 7) 2000 S (-1)).map (·.1)).bind Space.delta) =
    some ⟨2, [[1, 0], [0, -1]]⟩ := by decide +kernel

/-- `kern` at level 11 -/
def kern11 (H : Space) : Option Elim.SSub :=
  H.kern Marith.Props.xgcd0 .int 7 (fun _ => true) (Mat.echmodp Marith.Props.xgcd0 .int 7) 70

/-- its basis, and `T_2` with the eigenvalue `-2` twice and `W_11` on it; on the whole space `T_2` has also the
eigenvalue 3 -/
example : (ex11.bind fun H => (kern11 H).bind fun s => (H.heckeopCusp .int s 2).bind fun M => (H.heckeopCusp .int s 11).bind fun W =>
    (Smat.row s.basis 1).bind fun b1 => (Smat.row s.basis 2).bind fun b2 => (Smat.row s.basis 3).bind fun b3 =>
    (Smat.row M 1).bind fun r1 => (Smat.row M 2).bind fun r2 => (Smat.row W 1).bind fun w1 => (Smat.row W 2).map fun w2 =>
      ([b1, b2, b3], [r1, r2], [w1, w2])) =
    some ([⟨2, []⟩, ⟨2, [(1, 1)]⟩, ⟨2, [(2, 1)]⟩], [⟨2, [(1, -2)]⟩, ⟨2, [(2, -2)]⟩], [⟨2, [(1, -1)]⟩, ⟨2, [(2, -1)]⟩]) := by decide +kernel

end Eclib.Hom
