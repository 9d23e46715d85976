import Verif.Sift.Char
import Verif.Sift.Roots

/-!
# The bits computed by `code` and `eps`
-/

namespace Eclib.Sift

open WeierstrassCurve Eclib.Curve

/-- what the constructor finds -/
structure AuxOk (E : Cv) (a : Aux) : Prop where
  prime : a.p.Prime
  h5 : 5 ≤ a.p
  hΔ : ¬ (a.p : ℤ) ∣ E.W.Δ
  roots : ∃ c d, RootsOk a.p 0 c d a.roots ∧ (a.p : ℤ) ∣ c + 27 * E.W.c₄ ∧ (a.p : ℤ) ∣ d + 54 * E.W.c₆
  pos : 0 < a.roots.length

theorem mod_cong (a : ℤ) (p : ℕ) : (p : ℤ) ∣ Marith.mod a p - a := by
  unfold Marith.mod
  simp only [Int.natAbs_natCast]
  have h : (p : ℤ) ∣ a.fmod p - a := by
    have := Int.fmod_add_mul_fdiv a p
    exact ⟨-(a.fdiv p), by linarith⟩
  split
  · rw [show a.fmod p - p - a = (a.fmod p - a) - p by ring]
    exact dvd_sub h dvd_rfl
  · split
    · rw [show a.fmod p + p - a = (a.fmod p - a) + p by ring]
      exact dvd_add h dvd_rfl
    · exact h

theorem findAux_ok {E : Cv} : ∀ (na : ℕ) (primes : List ℕ), (∀ p ∈ primes, p.Prime ∧ 5 ≤ p) → ∀ l,
    findAux E.W.c₄ (2 * E.W.c₆) E.W.Δ na primes = some l → l.length = na ∧ ∀ a ∈ l, AuxOk E a ∧ a.p ∈ primes
  | 0, _, _, l, h => by
    simp only [findAux, Option.some.injEq] at h
    subst h
    simp
  | na + 1, [], _, l, h => by simp [findAux] at h
  | na + 1, p :: ps, hp, l, h => by
    obtain ⟨hpp, h5⟩ := hp p List.mem_cons_self
    have hps : ∀ q ∈ ps, q.Prime ∧ 5 ≤ q := fun q hq => hp q (List.mem_cons_of_mem _ hq)
    have weak {m : ℕ} {l : List Aux} (h : l.length = m ∧ ∀ a ∈ l, AuxOk E a ∧ a.p ∈ ps) :
        l.length = m ∧ ∀ a ∈ l, AuxOk E a ∧ a.p ∈ p :: ps :=
      ⟨h.1, fun a ha => ⟨(h.2 a ha).1, List.mem_cons_of_mem _ (h.2 a ha).2⟩⟩
    rw [findAux] at h
    split at h
    · exact weak (findAux_ok _ ps hps l h)
    · rename_i hd
      dsimp only at h
      split at h
      · rename_i hlen
        rw [Option.map_eq_some_iff] at h
        obtain ⟨l', hl', rfl⟩ := h
        obtain ⟨i1, i2⟩ := weak (findAux_ok _ ps hps l' hl')
        refine ⟨by simp [i1], ?_⟩
        intro a ha
        rcases List.mem_cons.1 ha with rfl | ha
        · refine ⟨⟨hpp, h5, ?_, ⟨_, _, nrootscubic_ok hpp _ _ _, ?_, ?_⟩, hlen⟩, List.mem_cons_self⟩
          · intro hdvd
            apply hd
            rw [beq_iff_eq, Int.fmod_eq_zero_of_dvd hdvd]
          · have := mod_cong (-27 * E.W.c₄) p
            rwa [show Marith.mod (-27 * E.W.c₄) p - -27 * E.W.c₄ = Marith.mod (-27 * E.W.c₄) p + 27 * E.W.c₄ by ring] at this
          · have := mod_cong (-27 * (2 * E.W.c₆)) p
            rwa [show Marith.mod (-27 * (2 * E.W.c₆)) p - -27 * (2 * E.W.c₆) =
              Marith.mod (-27 * (2 * E.W.c₆)) p + 54 * E.W.c₆ by ring] at this
        · exact i2 a ha
      · exact weak (findAux_ok _ ps hps l h)

/-- the roots are roots -/
theorem AuxOk.root {E : Cv} {a : Aux} (h : AuxOk E a) {t : ℤ} (ht : t ∈ a.roots) :
    (a.p : ℤ) ∣ t ^ 3 - 27 * E.W.c₄ * t - 54 * E.W.c₆ := by
  obtain ⟨c, d, hr, hc, hd⟩ := h.roots
  have h1 := ((hr.mem t).1 ht).2.2
  have : t ^ 3 - 27 * E.W.c₄ * t - 54 * E.W.c₆ = cub 0 c d t - (c + 27 * E.W.c₄) * t - (d + 54 * E.W.c₆) := by
    unfold cub
    ring
  rw [this]
  exact dvd_sub (dvd_sub h1 (dvd_mul_of_dvd_left hc _)) hd

theorem AuxOk.good {E : Cv} {a : Aux} (h : AuxOk E a) [Fact a.p.Prime] {t : ℤ} (ht : t ∈ a.roots) :
    ∃ Θ : ℤ_[a.p], Good a.p E t Θ := by
  obtain ⟨Θ, h1, h2⟩ := root_lift h.h5 E h.hΔ (h.root ht)
  exact ⟨Θ, h.h5, h.hΔ, h1, h2⟩

/-- the roots whose characters are the bits -/
def coords (a : Aux) : List ℤ :=
  match a.roots with
  | [t] => [t]
  | [t0, t1, _] => [t1, t0]
  | _ => []

/-- the condition computed -/
def Bit (E : Cv) (p : ℕ) (t x z2 : ℤ) : Prop := ¬ IsSquare ((sval E.W.c₄ p t x z2 : ℤ) : ZMod p)

/-- the bits of one prime -/
def block (I : ℤ) (a : Aux) (x z2 : ℤ) : List Bool :=
  if a.roots.length == 1 then [code I a x z2 % 2 == 1] else [code I a x z2 % 2 == 1, code I a x z2 / 2 % 2 == 1]

theorem eps_eq (S : Sifter) (x z2 : ℤ) : eps S x z2 = S.auxs.flatMap (fun a => block S.I a x z2) := rfl

theorem bitlem (b : Bool) : (((if b = true then 0 else 1 : ℕ) % 2 == 1) = true ↔ ¬ b = true) := by
  cases b <;> decide

theorem block_spec {E : Cv} {a : Aux} (h : AuxOk E a) {u d : ℤ} (hud : IsCoprime u d) :
    List.Forall₂ (fun (b : Bool) t => b = true ↔ Bit E a.p t (36 * u + 3 * E.W.b₂ * d ^ 2) (d ^ 2))
      (block E.W.c₄ a (36 * u + 3 * E.W.b₂ * d ^ 2) (d ^ 2)) (coords a) := by
  have hF : Fact a.p.Prime := ⟨h.prime⟩
  have hp2 : a.p ≠ 2 := by have := h.h5; omega
  have hunit (t : ℤ) (ht : t ∈ a.roots) :
      ((sval E.W.c₄ a.p t (36 * u + 3 * E.W.b₂ * d ^ 2) (d ^ 2) : ℤ) : ZMod a.p) ≠ 0 := by
    obtain ⟨Θ, g⟩ := h.good ht
    exact sval_unit g hud
  set x := 36 * u + 3 * E.W.b₂ * d ^ 2 with hx
  have hsh := h.roots
  obtain ⟨c, e, hr, hc, he⟩ := hsh
  rcases hr.shape with h0 | ⟨t, h1⟩ | ⟨t0, t1, t2, h3, hV⟩
  · have := h.pos
    rw [h0] at this
    simp at this
  · have hb : block E.W.c₄ a x (d ^ 2) = [code E.W.c₄ a x (d ^ 2) % 2 == 1] := by
      unfold block
      rw [h1]
      rfl
    have hco : coords a = [t] := by
      unfold coords
      rw [h1]
    rw [hb, hco]
    refine List.Forall₂.cons ?_ List.Forall₂.nil
    have hsq (v : ℤ) := sq_posmod h.prime hp2 v
    unfold Bit sval code
    rw [h1]
    dsimp only
    by_cases hα : (a.p : ℤ) ∣ x - t * d ^ 2
    · rw [if_pos hα, if_neg (by rw [not_not]; exact (posmod_zero h.prime _).2 hα)]
      have e1 : 3 * x * x - 27 * E.W.c₄ * d ^ 2 * d ^ 2 = 3 * x ^ 2 - 27 * E.W.c₄ * (d ^ 2) ^ 2 := by ring
      rw [e1, ← hsq]
      exact bitlem _
    · rw [if_neg hα, if_pos (fun h' => hα ((posmod_zero h.prime _).1 h')), ← hsq]
      exact bitlem _
  · have hb : block E.W.c₄ a x (d ^ 2) =
        [code E.W.c₄ a x (d ^ 2) % 2 == 1, code E.W.c₄ a x (d ^ 2) / 2 % 2 == 1] := by
      unfold block
      rw [h3]
      rfl
    have hco : coords a = [t1, t0] := by
      unfold coords
      rw [h3]
    have hu0 := hunit t0 (by rw [h3]; simp)
    have hu1 := hunit t1 (by rw [h3]; simp)
    have cast (a' : ℤ) : (a.p : ℤ) ∣ a' ↔ (a' : ZMod a.p) = 0 := (ZMod.intCast_zmod_eq_zero_iff_dvd a' a.p).symm
    -- the identity behind the products
    obtain ⟨v1, v2, v3⟩ := hV
    rw [cast] at v1 v2 v3 hc he
    push_cast at v1 v2 v3 hc he
    have hβ0 (h' : (a.p : ℤ) ∣ x - t0 * d ^ 2) : ((3 * x ^ 2 - 27 * E.W.c₄ * (d ^ 2) ^ 2 : ℤ) : ZMod a.p) =
        ((x - t1 * d ^ 2 : ℤ) : ZMod a.p) * ((x - t2 * d ^ 2 : ℤ) : ZMod a.p) := by
      rw [cast] at h'
      push_cast at h' ⊢
      linear_combination (2 * (x : ZMod a.p) + (t0 : ZMod a.p) * d ^ 2) * h' +
        ((d : ZMod a.p) ^ 2 * x + (t0 : ZMod a.p) * (d : ZMod a.p) ^ 4) * v1 - (d : ZMod a.p) ^ 4 * v2 - (d : ZMod a.p) ^ 4 * hc
    have hβ1 (h' : (a.p : ℤ) ∣ x - t1 * d ^ 2) : ((3 * x ^ 2 - 27 * E.W.c₄ * (d ^ 2) ^ 2 : ℤ) : ZMod a.p) =
        ((x - t0 * d ^ 2 : ℤ) : ZMod a.p) * ((x - t2 * d ^ 2 : ℤ) : ZMod a.p) := by
      rw [cast] at h'
      push_cast at h' ⊢
      linear_combination (2 * (x : ZMod a.p) + (t1 : ZMod a.p) * d ^ 2) * h' +
        ((d : ZMod a.p) ^ 2 * x + (t1 : ZMod a.p) * (d : ZMod a.p) ^ 4) * v1 - (d : ZMod a.p) ^ 4 * v2 - (d : ZMod a.p) ^ 4 * hc
    have hsg (v : ℤ) := sgn_eq (p := a.p) hp2 v
    have hz (v : ℤ) : (quadraticChar (ZMod a.p) (v : ZMod a.p) == 0) = true ↔ (a.p : ℤ) ∣ v := by
      rw [beq_iff_eq, quadraticChar_eq_zero_iff, cast]
    have k0 : quadraticChar (ZMod a.p) ((sval E.W.c₄ a.p t0 x (d ^ 2) : ℤ) : ZMod a.p) =
        if quadraticChar (ZMod a.p) ((x - t0 * d ^ 2 : ℤ) : ZMod a.p) == 0 then
          quadraticChar (ZMod a.p) ((x - t1 * d ^ 2 : ℤ) : ZMod a.p) * quadraticChar (ZMod a.p) ((x - t2 * d ^ 2 : ℤ) : ZMod a.p)
        else quadraticChar (ZMod a.p) ((x - t0 * d ^ 2 : ℤ) : ZMod a.p) := by
      by_cases hα : (a.p : ℤ) ∣ x - t0 * d ^ 2
      · rw [if_pos ((hz _).2 hα), sval, if_pos hα, hβ0 hα, map_mul]
      · rw [if_neg (fun h' => hα ((hz _).1 h')), sval, if_neg hα]
    have k1 : quadraticChar (ZMod a.p) ((sval E.W.c₄ a.p t1 x (d ^ 2) : ℤ) : ZMod a.p) =
        if quadraticChar (ZMod a.p) ((x - t0 * d ^ 2 : ℤ) : ZMod a.p) == 0 then
          quadraticChar (ZMod a.p) ((x - t1 * d ^ 2 : ℤ) : ZMod a.p)
        else if quadraticChar (ZMod a.p) ((x - t1 * d ^ 2 : ℤ) : ZMod a.p) == 0 then
          quadraticChar (ZMod a.p) ((x - t0 * d ^ 2 : ℤ) : ZMod a.p) * quadraticChar (ZMod a.p) ((x - t2 * d ^ 2 : ℤ) : ZMod a.p)
        else quadraticChar (ZMod a.p) ((x - t1 * d ^ 2 : ℤ) : ZMod a.p) := by
      by_cases hα : (a.p : ℤ) ∣ x - t0 * d ^ 2
      · have h1 : ¬ (a.p : ℤ) ∣ x - t1 * d ^ 2 := by
          intro h'
          rw [sval, if_pos hα, hβ0 hα, (cast _).1 h', zero_mul] at hu0
          exact hu0 rfl
        rw [if_pos ((hz _).2 hα), sval, if_neg h1]
      · rw [if_neg (fun h' => hα ((hz _).1 h'))]
        by_cases hα1 : (a.p : ℤ) ∣ x - t1 * d ^ 2
        · rw [if_pos ((hz _).2 hα1), sval, if_pos hα1, hβ1 hα1, map_mul]
        · rw [if_neg (fun h' => hα1 ((hz _).1 h')), sval, if_neg hα1]
    have hcode : code E.W.c₄ a x (d ^ 2) =
        if quadraticChar (ZMod a.p) ((sval E.W.c₄ a.p t0 x (d ^ 2) : ℤ) : ZMod a.p) == 1 then
          (if quadraticChar (ZMod a.p) ((sval E.W.c₄ a.p t1 x (d ^ 2) : ℤ) : ZMod a.p) == 1 then 0 else 1)
        else (if quadraticChar (ZMod a.p) ((sval E.W.c₄ a.p t1 x (d ^ 2) : ℤ) : ZMod a.p) == 1 then 2 else 3) := by
      rw [k0, k1]
      unfold code
      rw [h3]
      dsimp only
      rw [hsg, hsg, hsg]
    have q0 := quadraticChar_one_iff_isSquare hu0
    have q1 := quadraticChar_one_iff_isSquare hu1
    rw [hb, hco, hcode]
    refine List.Forall₂.cons ?_ (List.Forall₂.cons ?_ List.Forall₂.nil)
    · rw [Bit, ← q1]
      rcases quadraticChar_dichotomy hu0 with g0 | g0 <;> rcases quadraticChar_dichotomy hu1 with g1 | g1 <;>
        rw [g0, g1] <;> decide
    · rw [Bit, ← q0]
      rcases quadraticChar_dichotomy hu0 with g0 | g0 <;> rcases quadraticChar_dichotomy hu1 with g1 | g1 <;>
        rw [g0, g1] <;> decide

end Eclib.Sift
