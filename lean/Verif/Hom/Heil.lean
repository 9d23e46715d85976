import Verif.Hom.HeilModel
import Verif.Hom.HeckeProps

/-!
# C78: Heilbronn matrices
-/

set_option linter.unusedSectionVars false

namespace Eclib.Hom

open Ratl (R)
open Symb (Symbdata)
open Symb.SymbSpec Symb.CuspSpec ManinSpec
open Svec (T SV)
open Smat.Props (SRep)
open Elim (RrefOk SparseOk)

/-! ### chains -/

/-- a chain: each matrix is the previous one times `(0,-1;1,q)`, and the last has upper right entry 0 -/
def Chain (H : M22) : List M22 → Prop
  | [] => H.b = 0
  | H' :: l => (∃ q : ℤ, H' = ⟨H.b, q * H.b - H.a, H.d, q * H.d - H.c⟩) ∧ Chain H' l

/-- a list of matrices which consists of `(1,0;0,p)` and of chains which start with `(p,k;0,1)`, where `k` runs
through all residues modulo `p` -/
def IsHeil (p : ℕ) (L : List M22) : Prop :=
  ∃ cs : List (ℤ × List M22), L.Perm (⟨1, 0, 0, p⟩ :: cs.flatMap fun c => ⟨p, c.1, 0, 1⟩ :: c.2) ∧
    (∀ c ∈ cs, Chain ⟨p, c.1, 0, 1⟩ c.2) ∧ cs.length = p ∧ (cs.map fun c => ((c.1 : ℤ) : ZMod p)).Nodup

variable {K : Type*} [Field K] {N pf : ℤ} {f : OnePoint ℚ → OnePoint ℚ → K} {φ : ℤ → ℤ → K}

/-- the sum of the values at `(u:v)H` -/
def msum (φ : ℤ → ℤ → K) (u v : ℤ) (l : List M22) : K := (l.map fun H => φ (H.a * u + H.c * v) (H.b * u + H.d * v)).sum

theorem msum_cons (φ : ℤ → ℤ → K) (u v : ℤ) (H : M22) (l : List M22) :
    msum φ u v (H :: l) = φ (H.a * u + H.c * v) (H.b * u + H.d * v) + msum φ u v l := by simp [msum]

/-- the sum over a chain telescopes -/
theorem chain_sum (hf : IsModSym N pf f) (hφ : IsManin N pf φ) (hA : Assoc f φ) {u v p e : ℤ} (hp : IsCoprime p N)
    (he : IsCoprime e N) (hp0 : p ≠ 0) {b1 b2 : ℤ} (l : List M22) : ∀ (H : M22) {x y z w : ℤ}, Chain H l → x * w - y * z = 1 →
    p * x = b1 * H.a + b2 * H.c → p * y = b1 * H.b + b2 * H.d → p * z = e * (H.a * u + H.c * v) → p * w = e * (H.b * u + H.d * v) →
    msum φ u v (H :: l) = f (cusp b2 (e * v)) (cusp x z) := by
  have key : ∀ (H : M22) {x y z w : ℤ}, x * w - y * z = 1 → p * z = e * (H.a * u + H.c * v) → p * w = e * (H.b * u + H.d * v) →
      φ (H.a * u + H.c * v) (H.b * u + H.d * v) = f (cusp y w) (cusp x z) := by
    intro H x y z w hd hz hw
    rw [← hA x y z w hd]
    obtain ⟨e', n, hen⟩ := he
    have hcop : IsCoprime (e' * p) N := by
      refine IsCoprime.mul_left ?_ hp
      exact ⟨e, n, by linear_combination hen⟩
    refine (hφ.equiv (unimod_of_det hd) ⟨e' * p, hcop, ⟨(H.a * u + H.c * v) * n, ?_⟩, ⟨(H.b * u + H.d * v) * n, ?_⟩⟩).symm
    · linear_combination -e' * hz - (H.a * u + H.c * v) * hen
    · linear_combination -e' * hw - (H.b * u + H.d * v) * hen
  induction l with
  | nil =>
    intro H x y z w hc hd hx hy hz hw
    unfold Chain at hc
    rw [msum_cons, key H hd hz hw]
    rw [hc] at hy hw
    have e1 : p * y = H.d * b2 := by linear_combination hy
    have e2 : p * w = H.d * (e * v) := by linear_combination hw
    have hd0 : H.d ≠ 0 := by
      intro h0
      rw [h0, zero_mul] at e1 e2
      have h1 := (mul_eq_zero.1 e1).resolve_left hp0
      have h2 := (mul_eq_zero.1 e2).resolve_left hp0
      rw [h1, h2] at hd
      norm_num at hd
    rw [← cusp_scale hp0 y w, e1, e2, cusp_scale hd0]
    simp [msum]
  | cons H' l ih =>
    intro H x y z w hc hd hx hy hz hw
    obtain ⟨⟨q, rfl⟩, hc'⟩ := hc
    rw [msum_cons, key H hd hz hw, ih _ (x := y) (y := q * y - x) (z := w) (w := q * w - z) hc' (by linear_combination hd) hy
      (by linear_combination q * hy - hx) hw (by linear_combination q * hw - hz), add_comm, hf.add]

theorem msum_append (φ : ℤ → ℤ → K) (u v : ℤ) (l l' : List M22) : msum φ u v (l ++ l') = msum φ u v l + msum φ u v l' := by
  simp [msum]

theorem msum_flatMap (φ : ℤ → ℤ → K) (u v : ℤ) {α : Type*} (cs : List α) (g : α → List M22) :
    msum φ u v (cs.flatMap g) = (cs.map fun c => msum φ u v (g c)).sum := by
  induction cs with
  | nil => simp [msum]
  | cons c cs ih => rw [List.flatMap_cons, msum_append, ih, List.map_cons, List.sum_cons]

section

variable {p : ℕ} [hp : Fact p.Prime]

/-- one chain belongs to one term of the Hecke operator -/
theorem term_sum (hf : IsModSym N pf f) (hφ : IsManin N pf φ) (hA : Assoc f φ) (hpN : IsCoprime (p : ℤ) N) {x y u v : ℤ}
    (hg : x * v - y * u = 1) (o : Option (ZMod p)) {H : M22} {l : List M22} (hc : Chain H l)
    (hH : match perm x y u v o with
      | none => H = ⟨1, 0, 0, p⟩
      | some j => ∃ k : ℤ, H = ⟨p, k, 0, 1⟩ ∧ (k : ZMod p) = -j) :
    slash (rep o).1 (rep o).2.1 (rep o).2.2.1 (rep o).2.2.2 f (cusp y v) (cusp x u) = msum φ u v (H :: l) := by
  have hp0 : (p : ℤ) ≠ 0 := by exact_mod_cast hp.out.ne_zero
  have hgz : ((x * v - y * u : ℤ) : ZMod p) ≠ 0 := by rw [hg, Int.cast_one]; exact one_ne_zero
  obtain ⟨h1, h2⟩ := rep_mul o hgz
  obtain ⟨X, Y, Z, W, -, e0, e1, e2, e3, e4⟩ := divide (N := 1) h1 h2 isCoprime_one_right (one_dvd _)
  have hr := rep_det o
  have hdet : X * W - Y * Z = 1 := mul_right_cancel₀ hp0 (by rw [e0]; linear_combination (x * v - y * u) * hr + p * hg)
  -- the lower row of the representative
  obtain ⟨e, hr1, hr2, he⟩ : ∃ e : ℤ, (rep o).2.2.1 = 0 ∧ (rep o).2.2.2 = e ∧ IsCoprime e N := by
    cases o with
    | none => exact ⟨1, rfl, rfl, isCoprime_one_left⟩
    | some j => exact ⟨p, rfl, rfl, hpN⟩
  have hyv : y ≠ 0 ∨ v ≠ 0 := by
    by_contra hcon
    push Not at hcon
    rw [hcon.1, hcon.2] at hg
    norm_num at hg
  unfold slash
  rw [mob_cusp _ _ _ _ hyv, mob_cusp _ _ _ _ (ne_of_det hg)]
  rw [hr1, hr2] at e3 e4 ⊢
  rw [zero_mul, zero_add] at e3 e4 ⊢
  rw [zero_mul, zero_add]
  generalize (rep o).1 * x + (rep o).2.1 * u = B1 at *
  generalize (rep o).1 * y + (rep o).2.1 * v = B2 at *
  clear hr hr1 hr2 h1 h2 e0
  generalize perm x y u v o = o' at *
  cases o' with
  | none =>
    simp only at hH
    subst hH
    simp only [rep, mul_zero, add_zero, mul_one, zero_add] at e1 e2 e3 e4
    symm
    rw [chain_sum hf hφ hA hpN he hp0 (b1 := B1) (b2 := B2) l _ (x := X) (y := Y) (z := Z) (w := W) hc hdet
      (by simp only; linear_combination -e1) (by simp only; linear_combination -p * e2) (by simp only; linear_combination -e3)
      (by simp only; linear_combination -p * e4), ← cusp_scale hp0 X Z]
    congr 2
    · linear_combination -e1
    · linear_combination -e3
  | some j =>
    obtain ⟨k, rfl, hk⟩ := hH
    obtain ⟨t, ht⟩ := (ZMod.intCast_zmod_eq_zero_iff_dvd (k + j.val) p).1 (by push_cast; rw [hk]; simp)
    simp only [rep, mul_zero, add_zero, mul_one] at e1 e2 e3 e4
    symm
    rw [chain_sum hf hφ hA hpN he hp0 (b1 := B1) (b2 := B2) l _ (x := X) (y := X * t + Y) (z := Z) (w := Z * t + W) hc
      (by linear_combination hdet) (by simp only; linear_combination -p * e1) (by simp only; linear_combination -k * e1 - e2 - X * ht)
      (by simp only; linear_combination -p * e3) (by simp only; linear_combination -k * e3 - e4 - Z * ht)]
    congr 2
    · exact e1.symm
    · exact e3.symm

/-- the Heilbronn matrices give the Hecke operator -/
theorem heil_sum (hf : IsModSym N pf f) (hφ : IsManin N pf φ) (hA : Assoc f φ) (hpN : IsCoprime (p : ℤ) N) {L : List M22}
    (hL : IsHeil p L) {x y u v : ℤ} (hg : x * v - y * u = 1) : msum φ u v L = heckeT p f (cusp y v) (cusp x u) := by
  obtain ⟨cs, hperm, hch, hlen, hnd⟩ := hL
  have hgz : ((x * v - y * u : ℤ) : ZMod p) ≠ 0 := by rw [hg, Int.cast_one]; exact one_ne_zero
  have hbij := perm_bij (p := p) hgz
  -- the chain of a line
  have hcs : ∀ j : ZMod p, ∃ c ∈ cs, (c.1 : ZMod p) = -j := by
    intro j
    have h1 : (cs.map fun c => ((c.1 : ℤ) : ZMod p)).toFinset = Finset.univ := by
      apply Finset.eq_univ_of_card
      rw [List.toFinset_card_of_nodup hnd, List.length_map, hlen, ZMod.card]
    have h2 : -j ∈ (cs.map fun c => ((c.1 : ℤ) : ZMod p)).toFinset := by rw [h1]; simp
    simpa using h2
  choose cc hcc1 hcc2 using hcs
  let G : Option (ZMod p) → K := fun o' => match o' with
    | none => msum φ u v [⟨1, 0, 0, p⟩]
    | some j => msum φ u v (⟨p, (cc j).1, 0, 1⟩ :: (cc j).2)
  have hsum : heckeT p f (cusp y v) (cusp x u) = ∑ o, G o := by
    rw [heckeT_eq]
    refine Fintype.sum_bijective _ hbij _ _ fun o => ?_
    have ht := fun (H : M22) l hc => term_sum hf hφ hA hpN hg o (H := H) (l := l) hc
    generalize perm x y u v o = o' at *
    cases o' with
    | none => exact ht ⟨1, 0, 0, p⟩ [] rfl rfl
    | some j => exact ht _ _ (hch _ (hcc1 j)) ⟨_, rfl, hcc2 j⟩
  rw [hsum, Fintype.sum_option]
  have e1 : msum φ u v L = msum φ u v (⟨1, 0, 0, p⟩ :: cs.flatMap fun c => ⟨p, c.1, 0, 1⟩ :: c.2) := by
    unfold msum
    exact (hperm.map _).sum_eq
  rw [e1, msum_cons, msum_flatMap]
  congr 1
  · simp [G, msum]
  · -- every chain of the list is the chain of its line
    have hinj : ∀ c ∈ cs, cc (-(c.1 : ZMod p)) = c := by
      intro c hc
      have := hcc2 (-(c.1 : ZMod p))
      rw [neg_neg] at this
      exact List.inj_on_of_nodup_map hnd (hcc1 _) hc this
    have h2 : (cs.map fun c => msum φ u v (⟨p, c.1, 0, 1⟩ :: c.2)) =
        ((cs.map fun c => ((c.1 : ℤ) : ZMod p)).map fun z => G (some (-z))) := by
      rw [List.map_map]
      apply List.map_congr_left
      intro c hc
      simp only [Function.comp, G]
      rw [hinj c hc]
    rw [h2, ← List.sum_toFinset _ hnd]
    have h1 : (cs.map fun c => ((c.1 : ℤ) : ZMod p)).toFinset = Finset.univ := by
      apply Finset.eq_univ_of_card
      rw [List.toFinset_card_of_nodup hnd, List.length_map, hlen, ZMod.card]
    rw [h1]
    exact Equiv.sum_comp (Equiv.neg (ZMod p)) fun z => G (some z)

end

/-! ### the lists of the code -/

theorem chain_det {d : ℤ} (l : List M22) : ∀ {H : M22}, Chain H l → H.det = d → ∀ H' ∈ H :: l, H'.det = d := by
  induction l with
  | nil => intro H _ hd H' hH'; obtain rfl := List.mem_singleton.1 hH'; exact hd
  | cons H1 l ih =>
    intro H hc hd H' hH'
    obtain ⟨⟨q, rfl⟩, hc'⟩ := hc
    rcases List.mem_cons.1 hH' with rfl | hH'
    · exact hd
    · refine ih hc' ?_ H' hH'
      unfold M22.det at hd ⊢
      linear_combination hd

theorem heil_det {p : ℕ} {L : List M22} (hL : IsHeil p L) : ∀ H ∈ L, H.det = p := by
  obtain ⟨cs, hperm, hch, -, -⟩ := hL
  intro H hH
  rcases List.mem_cons.1 (hperm.mem_iff.1 hH) with rfl | hH
  · simp [M22.det]
  · obtain ⟨c, hc, hH⟩ := List.mem_flatMap.1 hH
    exact chain_det _ (hch c hc) (by simp [M22.det]) H hH

theorem heil_ne_nil {p : ℕ} {L : List M22} (hL : IsHeil p L) : L ≠ [] := by
  obtain ⟨cs, hperm, -, -, -⟩ := hL
  rintro rfl
  simpa using hperm.length_eq

theorem heilLoop_chain (n : ℕ) : ∀ {x1 x2 y1 y2 a b : ℤ}, b.natAbs < n → (x1 = a ∧ x2 = b ∨ x1 = -a ∧ x2 = -b) →
    Chain ⟨x1, x2, y1, y2⟩ (heilLoop x1 x2 y1 y2 a b) := by
  induction n with
  | zero => intro x1 x2 y1 y2 a b h; omega
  | succ n ih =>
    intro x1 x2 y1 y2 a b hn hx
    unfold heilLoop
    by_cases hb : b = 0
    · rw [dif_pos hb]
      unfold Chain
      simp only
      omega
    · rw [dif_neg hb]
      have hq := mod_quo a hb
      have hlt := natAbs_mod_lt a hb
      set b' := Arith.mod a b
      set q := (a - b').tdiv b
      simp only
      refine ⟨⟨q, rfl⟩, ih (by omega) ?_⟩
      rcases hx with ⟨rfl, rfl⟩ | ⟨rfl, rfl⟩
      · right
        exact ⟨by ring, by linear_combination hq⟩
      · left
        exact ⟨rfl, by linear_combination -hq⟩

theorem heilDefault_isHeil {p : ℕ} (hp : p % 2 = 1) : IsHeil p (heilDefault p) := by
  have hn : (((p : ℤ) - 1) / 2).toNat = p / 2 := by omega
  let ch : ℤ → ℕ → ℤ × List M22 := fun sg k =>
    (-sg * (k + 1 : ℕ), heilLoop p (-sg * (k + 1 : ℕ)) 0 1 (-p) (sg * (k + 1 : ℕ)))
  refine ⟨(0, []) :: [1, -1].flatMap fun sg => (List.range (p / 2)).map (ch sg), ?_, ?_, ?_, ?_⟩
  · apply List.Perm.of_eq
    unfold heilDefault
    rw [hn]
    simp [ch, List.flatMap_map]
  · intro c hc
    rcases List.mem_cons.1 hc with rfl | hc
    · rfl
    · obtain ⟨sg, -, hc⟩ := List.mem_flatMap.1 hc
      obtain ⟨k, -, rfl⟩ := List.mem_map.1 hc
      exact heilLoop_chain _ (Nat.lt_succ_self _) (Or.inr ⟨by ring, by ring⟩)
  · simp
    omega
  · have hl : (((0, []) :: [1, -1].flatMap fun sg => (List.range (p / 2)).map (ch sg)).map fun c => ((c.1 : ℤ) : ZMod p)) =
        ((0 :: ((List.range (p / 2)).map (fun k : ℕ => -((k : ℤ) + 1)) ++ (List.range (p / 2)).map (fun k : ℕ => (k : ℤ) + 1))).map
          fun z : ℤ => (z : ZMod p)) := by
      simp [ch, Function.comp_def]
    rw [hl]
    apply List.Nodup.map_on
    · intro a ha b hb hab
      have hr : ∀ z ∈ (0 :: ((List.range (p / 2)).map (fun k : ℕ => -((k : ℤ) + 1)) ++ (List.range (p / 2)).map (fun k : ℕ => (k : ℤ) + 1)) : List ℤ),
          2 * |z| < p := by
        intro z hz
        simp only [List.mem_cons, List.mem_append, List.mem_map, List.mem_range] at hz
        rcases hz with rfl | ⟨k, hk, rfl⟩ | ⟨k, hk, rfl⟩
        · simp; omega
        · rw [abs_neg, abs_of_nonneg (by positivity)]; omega
        · rw [abs_of_nonneg (by positivity)]; omega
      have h1 := hr a ha
      have h2 := hr b hb
      obtain ⟨k, hk⟩ := (ZMod.intCast_eq_intCast_iff_dvd_sub a b p).1 hab
      have h3 : |b - a| < p := by
        have := abs_sub b a
        omega
      rw [hk] at h3
      have h4 : k = 0 := by
        by_contra h0
        have : (1 : ℤ) ≤ |k| := Int.one_le_abs h0
        rw [abs_mul, Nat.abs_cast] at h3
        nlinarith
      rw [h4, mul_zero] at hk
      omega
    · rw [List.nodup_cons]
      constructor
      · simp
        constructor
        · intro k _; omega
        · intro k _; omega
      · apply List.Nodup.append
        · exact List.nodup_range.map fun a b h => by simpa using h
        · exact List.nodup_range.map fun a b h => by simpa using h
        · intro z h1 h2
          obtain ⟨k, -, rfl⟩ := List.mem_map.1 h1
          obtain ⟨k', -, h⟩ := List.mem_map.1 h2
          omega

/-- test of a chain -/
def chainB (H : M22) : List M22 → Bool
  | [] => H.b == 0
  | H' :: l =>
    let q := if H.b = 0 then (H'.d + H.c) / H.d else (H'.b + H.a) / H.b
    decide (H' = ⟨H.b, q * H.b - H.a, H.d, q * H.d - H.c⟩) && chainB H' l

theorem chainB_spec (l : List M22) : ∀ {H : M22}, chainB H l = true → Chain H l := by
  induction l with
  | nil => intro H h; unfold Chain; simpa [chainB] using h
  | cons H' l ih =>
    intro H h
    simp only [chainB, Bool.and_eq_true, decide_eq_true_eq] at h
    exact ⟨⟨_, h.1⟩, ih h.2⟩

/-- the chains of a table -/
def splitH (p : ℤ) (L : List M22) : List M22 × List (ℤ × List M22) :=
  L.foldr (fun H r => if H = ⟨1, 0, 0, p⟩ then r else if H.c = 0 then ([], (H.b, r.1) :: r.2) else (H :: r.1, r.2)) ([], [])

/-- test of a table -/
def heilB (p : ℕ) (L : List M22) : Bool :=
  let cs := (splitH p L).2
  L.isPerm (⟨1, 0, 0, p⟩ :: cs.flatMap fun c => ⟨p, c.1, 0, 1⟩ :: c.2) && cs.all (fun c => chainB ⟨p, c.1, 0, 1⟩ c.2) &&
    cs.length == p && decide ((cs.map fun c => c.1 % (p : ℤ)).Nodup)

theorem heilB_spec {p : ℕ} (hp : 0 < p) {L : List M22} (h : heilB p L = true) : IsHeil p L := by
  have : NeZero p := ⟨hp.ne'⟩
  simp only [heilB, Bool.and_eq_true, decide_eq_true_eq, List.all_eq_true, beq_iff_eq, List.isPerm_iff] at h
  obtain ⟨⟨⟨h1, h2⟩, h3⟩, h4⟩ := h
  refine ⟨_, h1, fun c hc => chainB_spec _ (h2 c hc), h3, ?_⟩
  apply List.Nodup.of_map (fun z : ZMod p => (z.val : ℤ))
  rw [List.map_map]
  convert h4 using 2
  funext c
  exact ZMod.val_intCast c.1

theorem matopH_isHeil {p : ℕ} (hp : p.Prime) : IsHeil p (matopH p) := by
  have hp0 := hp.pos
  have h2 := hp.eq_two_or_odd
  unfold matopH
  have e : ∀ n : ℕ, ((p : ℤ) = n) ↔ p = n := fun n => Int.natCast_inj
  split_ifs with c1 c2 c3 c4 c5 c6 c7 c8 c9 c10
  · obtain rfl := (e 2).1 c1; exact heilB_spec hp0 (by decide +kernel)
  · obtain rfl := (e 3).1 c2; exact heilB_spec hp0 (by decide +kernel)
  · obtain rfl := (e 5).1 c3; exact heilB_spec hp0 (by decide +kernel)
  · obtain rfl := (e 7).1 c4; exact heilB_spec hp0 (by decide +kernel)
  · obtain rfl := (e 11).1 c5; exact heilB_spec hp0 (by decide +kernel)
  · obtain rfl := (e 13).1 c6; exact heilB_spec hp0 (by decide +kernel)
  · obtain rfl := (e 17).1 c7; exact heilB_spec hp0 (by decide +kernel)
  · obtain rfl := (e 19).1 c8; exact heilB_spec hp0 (by decide +kernel)
  · obtain rfl := (e 23).1 c9; exact heilB_spec hp0 (by decide +kernel)
  · obtain rfl := (e 29).1 c10; exact heilB_spec hp0 (by decide +kernel)
  · exact heilDefault_isHeil (h2.resolve_left fun h => c1 ((e 2).2 h))

/-! ### the matrix -/

theorem unimod_det {N c d a b x y p : ℤ} (h : Unimod N c d) (hd : a * y - b * x = p) (hp : IsCoprime p N) :
    Unimod N (a * c + x * d) (b * c + y * d) := by
  obtain ⟨s, t, k, hk⟩ := h
  obtain ⟨m, n, hmn⟩ := hp
  subst hd
  exact ⟨m * (s * y - t * b), m * (t * a - s * x), m * (a * y - b * x) * k + n,
    by linear_combination m * (a * y - b * x) * hk + hmn⟩

section

variable {q : ℕ} [Fact q.Prime] {N pf : ℤ} {H : Space} {x : ℤ → ℤ → Fin H.rk → ℤ} {gen : Fin H.rk → ℤ × ℤ}

theorem SpaceOk.heilSum (h : SpaceOk q N pf H x gen) {p : ℕ} (hpN : IsCoprime (p : ℤ) N) {L : List M22} (hL : L ≠ [])
    (hdet : ∀ M ∈ L, M.det = p) {s : ℤ × ℤ} (hs : Unimod N s.1 s.2) :
    ∃ v, H.heilSum L s = some v ∧ SRep True v (L.map fun M => x (M.a * (s.1 % N) + M.c * (s.2 % N)) (M.b * (s.1 % N) + M.d * (s.2 % N))).sum := by
  have hN0 : (0 : ℤ) < N := by have := h.lev; omega
  have hu : Unimod N (s.1 % N) (s.2 % N) := by
    refine Symb.Unimod.of_equiv ⟨1, isCoprime_one_left, ?_, ?_⟩ hs
    · exact ⟨-(s.1 / N), by linear_combination Int.emod_add_mul_ediv s.1 N⟩
    · exact ⟨-(s.2 / N), by linear_combination Int.emod_add_mul_ediv s.2 N⟩
  have hact : ∀ M : M22, M.det = p → ∃ v, M.actM H s = some v ∧
      SRep True v (x (M.a * (s.1 % N) + M.c * (s.2 % N)) (M.b * (s.1 % N) + M.d * (s.2 % N))) := by
    intro M hM
    unfold M22.actM
    rw [h.level, Symb.reduce_eq hN0, Symb.reduce_eq hN0]
    exact h.cd (unimod_det hu hM hpN)
  have key : ∀ (l : List M22), (∀ M ∈ l, M.det = p) → ∀ (v : SV) (a : Fin H.rk → ℤ), SRep True v a → ∃ v',
      l.foldlM (fun ans M => (M.actM H s).map fun w => Svec.iadd ans w) v = some v' ∧
      SRep True v' (a + (l.map fun M => x (M.a * (s.1 % N) + M.c * (s.2 % N)) (M.b * (s.1 % N) + M.d * (s.2 % N))).sum) := by
    intro l
    induction l with
    | nil => intro _ v a hv; exact ⟨v, rfl, by simpa using hv⟩
    | cons M l ih =>
      intro hl v a hv
      obtain ⟨w, e1, e2⟩ := hact M (hl M List.mem_cons_self)
      obtain ⟨v', e3, e4⟩ := ih (fun M hM => hl M (List.mem_cons_of_mem _ hM)) _ _ (Smat.Props.srep_iadd hv e2)
      refine ⟨v', ?_, by rw [List.map_cons, List.sum_cons, ← add_assoc]; exact e4⟩
      rw [List.foldlM_cons, e1]
      exact e3
  cases L with
  | nil => exact absurd rfl hL
  | cons M l =>
    obtain ⟨w, e1, e2⟩ := hact M (hdet M List.mem_cons_self)
    obtain ⟨v', e3, e4⟩ := key l (fun M hM => hdet M (List.mem_cons_of_mem _ hM)) _ _ e2
    refine ⟨v', ?_, by rw [List.map_cons, List.sum_cons]; exact e4⟩
    unfold Space.heilSum
    simp only
    rw [e1, Option.bind_some]
    exact e3

theorem SpaceOk.newhecke (h : SpaceOk q N pf H x gen) {p : ℕ} (hp : p.Prime) (hpN : ¬(p : ℤ) ∣ N) :
    ∃ (cols : Fin H.rk → SV) (A : Fin H.rk → Fin H.rk → ℤ), H.newhecke (matopH p) = some (List.ofFn cols) ∧
      (∀ j, SRep True (cols j) (A j)) ∧ IsMatOf q N pf (fun j => modsym (gen j)) A (heckeT p) := by
  have : Fact p.Prime := ⟨hp⟩
  have hN0 : (0 : ℤ) < N := by have := h.lev; omega
  have hcop : IsCoprime (p : ℤ) N := (Prime.coprime_iff_not_dvd (Nat.prime_iff_prime_int.1 hp)).2 hpN
  have hL := matopH_isHeil hp
  choose cols h1 h2 using fun j => h.heilSum hcop (heil_ne_nil hL) (heil_det hL) (h.coords.unimod j)
  refine ⟨cols, _, ?_, h2, fun f hf => ⟨heckeT_isModSym hf hcop, fun j => ?_⟩⟩
  · unfold Space.newhecke
    apply mapM_ofFn _ _ _ h.len
    intro j
    obtain ⟨i, e1, e2⟩ := h.free j
    exact ⟨i, e1, by rw [e2]; exact h1 j⟩
  · obtain ⟨φ, hφ, hA⟩ := exists_manin hN0 hf
    obtain ⟨φ', hφ', hA'⟩ := exists_manin hN0 (heckeT_isModSym hf hcop)
    have hu := h.coords.unimod j
    rw [← (modsym_spec hφ' hA' h.lev hu).2.2]
    obtain ⟨a, b, c, d, hd, k1, k2⟩ := exists_matrix hN0 hu
    have hcop1 : IsCoprime (1 : ℤ) N := isCoprime_one_left
    rw [hφ'.equiv hu ⟨1, hcop1, by simpa using k1, by simpa using k2⟩, hA' a b c d hd, ← heil_sum hf hφ hA hcop hL hd]
    have hdv : ∀ z w : ℤ, N ∣ w - z → N ∣ w - z % N := by
      intro z w hzw
      have := Int.emod_add_mul_ediv z N
      obtain ⟨k, hk⟩ := hzw
      exact ⟨k + z / N, by linear_combination hk - this⟩
    have e1 : Equiv N ((gen j).1 % N) ((gen j).2 % N) c d := ⟨1, hcop1, by rw [one_mul]; exact hdv _ _ k1, by rw [one_mul]; exact hdv _ _ k2⟩
    generalize (gen j).1 % N = u at *
    generalize (gen j).2 % N = v at *
    have hcd : Unimod N c d := unimod_of_det hd
    have hdet := heil_det hL
    generalize matopH p = L at *
    clear hL h1 h2
    induction L with
    | nil => simp [msum]
    | cons M L ih =>
      have hM := hdet M List.mem_cons_self
      rw [msum_cons, ih fun M hM => hdet M (List.mem_cons_of_mem _ hM)]
      have hval : φ (M.a * c + M.c * d) (M.b * c + M.d * d) = φ (M.a * u + M.c * v) (M.b * u + M.d * v) := by
        have e2 := Symb.Props.Equiv.apply (Symb.Equiv.symm e1) M.a M.c M.b M.d
        exact hφ.equiv (unimod_det hcd hM hcop) e2
      rw [hval, h.value hφ hA (unimod_det (Symb.Unimod.of_equiv (Symb.Equiv.symm e1) hcd) hM hcop), ← Finset.sum_add_distrib]
      apply Finset.sum_congr rfl
      intro i _
      rw [List.map_cons, List.sum_cons, Pi.add_apply]
      push_cast
      ring

end

/-- the matrix of an operator with respect to a basis is unique -/
theorem matOf_unique {q : ℕ} [Fact q.Prime] {N pf : ℤ} {k : ℕ} {m : Fin k → R × R} (hb : IsBasis q N pf m)
    {A B : Fin k → Fin k → ℤ} {F : (OnePoint ℚ → OnePoint ℚ → ZMod q) → OnePoint ℚ → OnePoint ℚ → ZMod q}
    (hA : IsMatOf q N pf m A F) (hB : IsMatOf q N pf m B F) (i j : Fin k) : (A i j : ZMod q) = B i j := by
  obtain ⟨f, hf, hw⟩ := hb.exist (Pi.single j 1)
  have h1 := (hA f hf).2 i
  have h2 := (hB f hf).2 i
  rw [h1] at h2
  simpa [hw, Pi.single_apply] using h2

/-- **C78.**  For a prime `p` not dividing the level the matrix computed by `newheckeop` with the Heilbronn
matrices (tables up to 29, continued fractions otherwise) is the matrix modulo `q` of the Hecke
operator `T_p`; its entries are those of `heckeop(p)` modulo `q`, with the same meaning of `dual`. -/
theorem C78_newheckeop {q : ℕ} [Fact q.Prime] {N : ℤ} (hN : 1 < N) {ps : List ℤ} (hps : Spec.IsPrimeDivisorList N ps)
    {S : Symbdata} (hS : Symbdata.make N ps = some S) {pf : ℤ} (hpf : pf = 0 ∨ pf = 1 ∨ pf = -1) (hq : 3 < q)
    (X : Marith.XGcd) (t : T) {sparse : Elim.St → Bool} (hsp : SparseOk sparse) {rref : Mat.M → Mat.Ech}
    (hRr : RrefOk q rref) {fuel : ℕ} (hf : (S.nsymb.toNat + 11) * (2 * S.nsymb.toNat + 11) ≤ fuel) :
    ∃ H th, make X t q sparse rref fuel S pf = some (H, th) ∧ ∃ m : Fin H.rk → R × R,
      H.freemods = some (List.ofFn m) ∧ IsBasis q N pf m ∧
      ∀ p : ℕ, p.Prime → ¬(p : ℤ) ∣ N → ∀ dual display, ∃ M A, H.newheckeop p dual display = some M ∧
        (∀ i j : Fin H.rk, M.entry (i + 1) (j + 1) = some (if dual then A i j else A j i)) ∧ IsMatOf q N pf m A (heckeT p) ∧
        ∃ M', H.heckeopM p dual = some M' ∧ ∀ i j : Fin H.rk, ∃ a b, M.entry (i + 1) (j + 1) = some a ∧
          M'.entry (i + 1) (j + 1) = some b ∧ (q : ℤ) ∣ a - b := by
  obtain ⟨H, th, e, x, gen, h⟩ := SpaceOk.of_make hN hps hS hpf hq X t hsp hRr hf
  refine ⟨H, th, e, _, h.freemods, h.basis, ?_⟩
  intro p hp hpN dual display
  have : Fact p.Prime := ⟨hp⟩
  obtain ⟨cols, A, h1, h2, h3⟩ := h.newhecke hp hpN
  obtain ⟨H', th', e', m', k1, k2, k3, -⟩ := C77_hecke hN hps hS hpf hq X t hsp hRr hf
  rw [e] at e'
  obtain ⟨rfl, rfl⟩ := Prod.mk.inj (Option.some.inj e')
  rw [h.freemods] at k1
  have hm := List.ofFn_injective (Option.some.inj k1)
  subst hm
  obtain ⟨rows, B, b1, b2, b3⟩ := k3 p hp hpN
  have hent : ∀ (vs : Fin H.rk → SV) (C : Fin H.rk → Fin H.rk → ℤ), (∀ j, SRep True (vs j) (C j)) → ∀ i j : Fin H.rk,
      (⟨List.ofFn vs, dual⟩ : OpMat).entry (i + 1) (j + 1) = some (if dual then C i j else C j i) := by
    intro vs C hC i j
    unfold OpMat.entry
    cases dual
    · have := (hC j).val i
      simp only [Bool.false_eq_true, if_false, Nat.add_sub_cancel]
      rw [List.getElem?_ofFn, dif_pos j.2, Option.map_some]
      simpa using this
    · have := (hC i).val j
      simp only [if_true, Nat.add_sub_cancel]
      rw [List.getElem?_ofFn, dif_pos i.2, Option.map_some]
      simpa using this
  refine ⟨⟨List.ofFn cols, dual⟩, A, ?_, hent _ _ h2, h3, ⟨List.ofFn rows, dual⟩, ?_, fun i j =>
    ⟨_, _, hent _ _ h2 i j, hent _ _ b2 i j, ?_⟩⟩
  · unfold Space.newheckeop
    rw [if_neg (fun h0 => hpN (by rw [h.level] at h0; exact Int.dvd_of_tmod_eq_zero h0)), h1]
    rfl
  · unfold Space.heckeopM
    rw [b1]
    rfl
  · rw [← ZMod.intCast_zmod_eq_zero_iff_dvd]
    cases dual
    · simp only [Bool.false_eq_true, if_false]
      push_cast
      rw [matOf_unique h.basis h3 b3 j i, sub_self]
    · simp only [if_true]
      push_cast
      rw [matOf_unique h.basis h3 b3 i j, sub_self]

/-- **C79** (part).  For a prime `p` dividing the level `newheckeop(p,dual,display)` is `heckeop(p,dual)` if the flags
`dual` and `display` are equal.  The full statement is for all values of the flags; it is
false, see `C79_newheckeop_dual`. -/
theorem C79_newheckeop_partial (H : Space) {p : ℤ} (hp : p ∣ H.S.N) (dual : Bool) :
    H.newheckeop p dual dual = H.heckeopM p dual := by
  unfold Space.newheckeop
  rw [if_pos (Int.tmod_eq_zero_of_dvd hp)]
  rfl

/-- the space of level 4 without sign modulo 7 -/
def ex4 : Option Space := ((Symbdata.make 4 [2]).bind fun S =>
  make Marith.Props.xgcd0 .int 7 (fun _ => true) (Mat.echmodp Marith.Props.xgcd0 .int 7) 805 S 0).map (·.1)

/-- The transpose is not computed by `newheckeop(2, 1, 0)` at level 4: the flag `display` is used in the
place of `dual`, and the matrix of `W_4` is not symmetric. -/
theorem C79_newheckeop_dual : ∃ H M M', ex4 = some H ∧ H.newheckeop 2 true false = some M ∧ H.heckeopM 2 true = some M' ∧
    M.entry 1 2 = some (-1) ∧ M'.entry 1 2 = some 0 := by
  have h : (ex4.bind fun H => (H.newheckeop 2 true false).bind fun M => (H.heckeopM 2 true).map fun M' =>
      (M.entry 1 2, M'.entry 1 2)) = some (some (-1), some 0) := by decide +kernel
  obtain ⟨H, h1, h⟩ := Option.bind_eq_some_iff.1 h
  obtain ⟨M, h2, h⟩ := Option.bind_eq_some_iff.1 h
  obtain ⟨M', h3, h⟩ := Option.map_eq_some_iff.1 h
  obtain ⟨h4, h5⟩ := Prod.mk.inj h
  exact ⟨H, M, M', h1, h2, h3, h4, h5⟩

/-! ### examples -/

/-- `T_3` at level 11 with the table and `T_31` with continued fractions: the eigenvalues are `p+1` and `a_p` -/
example : (ex11.bind fun H => (H.newheckeop 3 false false)) =
    some ⟨[⟨3, [(1, 4), (2, -1), (3, 1)]⟩, ⟨3, [(2, -1)]⟩, ⟨3, [(3, -1)]⟩], false⟩ := by decide +kernel

example : (ex11.bind fun H => (H.newheckeop 31 false false)) =
    some ⟨[⟨3, [(1, 32), (2, -5), (3, 5)]⟩, ⟨3, [(2, 7)]⟩, ⟨3, [(3, 7)]⟩], false⟩ := by decide +kernel

/-- the hypotheses are met at the level 11 with the modulus of the code -/
example : ∃ S H th M, Symbdata.make 11 [11] = some S ∧
    make Marith.Props.xgcd0 .int (1073741789 : ℕ) (fun _ => true) (Mat.echmodp Marith.Props.xgcd0 .int (1073741789 : ℕ))
      ((S.nsymb.toNat + 11) * (2 * S.nsymb.toNat + 11)) S 1 = some (H, th) ∧ H.newheckeop (1009 : ℕ) false false = some M := by
  have : Fact (Nat.Prime 1073741789) := ⟨Xmod.Props.P_prime⟩
  obtain ⟨S, hS, _⟩ := Symb.specials_spec (by norm_num) ps11
  obtain ⟨H, th, h, m, h1, h2, h3⟩ := C78_newheckeop (q := 1073741789) (by norm_num) ps11 hS (pf := 1) (by norm_num) (by norm_num)
    Marith.Props.xgcd0 .int (sparse := fun _ => true) (fun _ _ => rfl) (Elim.rrefOk_echmodp _ .int) le_rfl
  obtain ⟨M, A, h4, _⟩ := h3 1009 (by norm_num) (by norm_num) false false
  exact ⟨S, H, th, _, hS, h, h4⟩

/-- a prime dividing the level with equal flags -/
example : ∃ H, ex4 = some H ∧ (2 : ℤ) ∣ H.S.N ∧ H.newheckeop 2 true true = H.heckeopM 2 true := by
  have h : (ex4.map fun H => H.S.N) = some 4 := by decide +kernel
  obtain ⟨H, h1, h2⟩ := Option.map_eq_some_iff.1 h
  exact ⟨H, h1, by rw [h2]; norm_num, C79_newheckeop_partial H (by rw [h2]; norm_num) true⟩

end Eclib.Hom
