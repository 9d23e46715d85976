import Verif.Egr.MapProps

/-!
# C109, C111: examples, and the wrong index when two component groups have order 3
-/

namespace Eclib.Egr

open EgrSpec

/-! ## Example: `ℤ²`, with component groups `ℤ/6` at 2, `(ℤ/2)²` at 3, `ℤ/2` at the real place -/

/-- the map to `ℤ/6` -/
def ex6 : ℤ × ℤ →+ ZMod 6 := (Int.castAddHom (ZMod 6)).comp (AddMonoidHom.fst ℤ ℤ + (AddMonoidHom.snd ℤ ℤ + AddMonoidHom.snd ℤ ℤ))

/-- the map to `(ℤ/2)²` -/
def ex22 : ℤ × ℤ →+ ZMod 2 × ZMod 2 := AddMonoidHom.prodMap (Int.castAddHom (ZMod 2)) (Int.castAddHom (ZMod 2))

/-- the map to `ℤ/2` -/
def ex2 : ℤ × ℤ →+ ZMod 2 := (Int.castAddHom (ZMod 2)).comp (AddMonoidHom.snd ℤ ℤ)

def exE : Env (ℤ × ℤ) where
  conncomp := 2
  reduct p := if p = 2 then some (6, 60) else if p = 3 then some (4, 1) else none
  good p P := if p = 0 then P.2 % 2 = 0 else if p = 2 then (P.1 + 2 * P.2) % 6 = 0 else if p = 3 then P.1 % 2 = 0 ∧ P.2 % 2 = 0 else true
  imageIm _ P _ := -(P.1 + 2 * P.2)

theorem exE_2 : PlaceOk exE 2 := by
  refine Or.inl ⟨6, ex6, isCG_iff.2 (by decide), by norm_num, fun P => ?_, fun _ => ⟨-1, fun P => ?_⟩⟩
  · have h1 : exE.good 2 P = decide ((P.1 + 2 * P.2) % 6 = 0) := rfl
    have h2 : ex6 P = ((P.1 + (P.2 + P.2) : ℤ) : ZMod 6) := rfl
    rw [h1, h2, decide_eq_true_iff, ZMod.intCast_zmod_eq_zero_iff_dvd]
    constructor <;> intro h <;> push_cast at * <;> omega
  · have h2 : ex6 P = ((P.1 + (P.2 + P.2) : ℤ) : ZMod 6) := rfl
    have h3 : exE.imageIm 2 P 6 = -(P.1 + 2 * P.2) := rfl
    rw [h2, h3]; push_cast; ring

theorem exE_3 : PlaceOk exE 3 := by
  refine Or.inr ⟨isCG_iff.2 (by decide), ex22, fun P => ?_⟩
  have h1 : exE.good 3 P = decide (P.1 % 2 = 0 ∧ P.2 % 2 = 0) := rfl
  have h2 : ex22 P = ((P.1 : ZMod 2), (P.2 : ZMod 2)) := rfl
  rw [h1, h2, decide_eq_true_iff, Prod.mk_eq_zero, ZMod.intCast_zmod_eq_zero_iff_dvd, ZMod.intCast_zmod_eq_zero_iff_dvd]
  push_cast
  constructor <;> rintro ⟨a, b⟩ <;> constructor <;> omega

theorem exE_0 : PlaceOk exE 0 := by
  refine Or.inl ⟨2, ex2, isCG_iff.2 (by decide), by norm_num, fun P => ?_, fun h => by omega⟩
  have h1 : exE.good 0 P = decide (P.2 % 2 = 0) := rfl
  have h2 : ex2 P = (P.2 : ZMod 2) := rfl
  rw [h1, h2, decide_eq_true_iff, ZMod.intCast_zmod_eq_zero_iff_dvd]
  push_cast
  omega

/-- the subgroups of good reduction -/
def exK (p : ℤ) : AddSubgroup (ℤ × ℤ) := if p = 0 then ex2.ker else if p = 2 then ex6.ker else ex22.ker

theorem exK_ok : IsGood exE 2 (exK 2) ∧ IsGood exE 3 (exK 3) ∧ IsGood exE 0 (exK 0) := by
  refine ⟨fun P => ?_, fun P => ?_, fun P => ?_⟩
  · have h1 : exE.good 2 P = decide ((P.1 + 2 * P.2) % 6 = 0) := rfl
    show ex6 P = 0 ↔ _
    have h2 : ex6 P = ((P.1 + (P.2 + P.2) : ℤ) : ZMod 6) := rfl
    rw [h1, h2, decide_eq_true_iff, ZMod.intCast_zmod_eq_zero_iff_dvd]
    constructor <;> intro h <;> push_cast at * <;> omega
  · have h1 : exE.good 3 P = decide (P.1 % 2 = 0 ∧ P.2 % 2 = 0) := rfl
    show ex22 P = 0 ↔ _
    have h2 : ex22 P = ((P.1 : ZMod 2), (P.2 : ZMod 2)) := rfl
    rw [h1, h2, decide_eq_true_iff, Prod.mk_eq_zero, ZMod.intCast_zmod_eq_zero_iff_dvd, ZMod.intCast_zmod_eq_zero_iff_dvd]
    push_cast
    constructor <;> rintro ⟨a, b⟩ <;> constructor <;> omega
  · have h1 : exE.good 0 P = decide (P.2 % 2 = 0) := rfl
    show ex2 P = 0 ↔ _
    have h2 : ex2 P = (P.2 : ZMod 2) := rfl
    rw [h1, h2, decide_eq_true_iff, ZMod.intCast_zmod_eq_zero_iff_dvd]
    push_cast
    omega

def exl : ℕ → ℤ × ℤ := fun i => if i = 0 then (1, 0) else if i = 1 then (1, 1) else (4, 2)

example := C109_gr1prime exE_2 exK_ok.1 exl 3
example := C109_grprimes exl 3 [2, 3] (K := exK) (E := exE) (by simp [exE_2, exE_3]) (by simp [exK_ok])
example := C109_egr_subgroup [2, 3] exl 3 true (K := exK) (E := exE) (by simp [exE_2, exE_3]) (by simp [exK_ok]) (fun _ => exE_0)
  (fun _ => exK_ok.2.2) (Or.inr rfl)
example : ((gr1prime exE exl 3 2).map (fun r => (r.1, r.2 0, r.2 1, r.2 2))) = some (6, (6, 0), (-2, 1), (2, 2)) := by decide +kernel
example : (egrSubgroup exE [2, 3] exl 3 true).map (·.1) = some 12 := by decide +kernel

theorem exSign : ∀ p ∈ [(2 : ℤ), 3], SignOk exE p [(1, 0), (1, 1), (4, 2)] := by
  intro p hp h
  simp only [List.mem_cons, List.not_mem_nil, or_false] at hp
  rcases hp with rfl | rfl <;> exact absurd h (by rw [isCG_iff, isCG_iff]; decide)

example := C111_egr_index_partial [2, 3] [(1, 0), (1, 1), (4, 2)] true (K := exK) (E := exE) (by simp [exE_2, exE_3]) (by simp [exK_ok])
  exSign (fun _ => exE_0) (fun _ => exK_ok.2.2) (Or.inr rfl)
example : egrIndex exE [2, 3] [(1, 0), (1, 1), (4, 2)] true = some 12 := by decide +kernel

/-! ## The wrong index -/

/-- two primes with component group of order 3 -/
def badE : Env (ZMod 3 × ZMod 3) where
  conncomp := 1
  reduct p := if p = 2 ∨ p = 3 then some (3, 30) else none
  good p P := if p = 2 then P.1 = 0 else if p = 3 then P.2 = 0 else true
  imageIm _ _ _ := 0

theorem badE_ok : PlaceOk badE 2 ∧ PlaceOk badE 3 := by
  constructor
  · exact Or.inl ⟨3, AddMonoidHom.fst _ _, isCG_iff.2 (by decide), by norm_num, fun P => decide_eq_true_iff, fun h => by omega⟩
  · exact Or.inl ⟨3, AddMonoidHom.snd _ _, isCG_iff.2 (by decide), by norm_num, fun P => decide_eq_true_iff, fun h => by omega⟩

/-- **C111**, negative: with component groups of order 3 at two primes and points whose images are (1,1) and (1,-1), `egr_index`
returns 3 although the index is 9 (which is what `egr_subgroup` returns). -/
theorem C111_index_wrong :
    PlaceOk badE 2 ∧ PlaceOk badE 3 ∧ egrIndex badE [2, 3] [(1, 1), (1, -1)] false = some 3 ∧
      (egrSubgroup badE [2, 3] (fun i => if i = 0 then (1, 1) else (1, -1)) 2 false).map (·.1) = some 9 ∧
      ∀ H : AddSubgroup (ZMod 3 × ZMod 3), (∀ P, P ∈ H ↔ ∀ p ∈ [(2 : ℤ), 3], badE.good p P = true) →
        H.relIndex (gen [(1, 1), (1, -1)]) = 9 := by
  refine ⟨badE_ok.1, badE_ok.2, by decide +kernel, by decide +kernel, fun H hH => ?_⟩
  have h1 : H = ⊥ := by
    rw [eq_bot_iff]
    intro P hP
    have h2 := (hH P).1 hP
    have h3 : P.1 = 0 := of_decide_eq_true (h2 2 (by simp))
    have h4 : P.2 = 0 := of_decide_eq_true (h2 3 (by simp))
    exact Prod.ext h3 h4
  have h2 : gen [((1 : ZMod 3), (1 : ZMod 3)), (1, -1)] = ⊤ := by
    rw [eq_top_iff]
    intro x _
    have key : ∀ x : ZMod 3 × ZMod 3, ∃ a b : Fin 3, x = a.val • ((1 : ZMod 3), (1 : ZMod 3)) + b.val • ((1 : ZMod 3), (-1 : ZMod 3)) := by
      decide +kernel
    obtain ⟨a, b, rfl⟩ := key x
    exact add_mem (nsmul_mem (AddSubgroup.subset_closure (by simp)) _) (nsmul_mem (AddSubgroup.subset_closure (by simp)) _)
  rw [h1, h2, AddSubgroup.relIndex_bot_left, Nat.card_congr AddSubgroup.topEquiv.toEquiv, Nat.card_eq_fintype_card]
  decide

end Eclib.Egr
