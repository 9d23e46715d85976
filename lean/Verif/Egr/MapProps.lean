import Verif.Egr.MapModel
import Verif.Egr.ImgProps
import Mathlib.Data.Fintype.List

/-!
# C111: the index computed by `egr_index`
-/

namespace Eclib.Egr

open EgrSpec

variable {A : Type} [AddCommGroup A]

/-! ## Specification -/

namespace EgrSpec

/-- the condition under which the map to a component group of order 3 or 4, known up to sign, is the same for all the points: those
whose double is not in the identity component are in one component -/
def SignOk (E : Env A) (p : ℤ) (pts : List A) : Prop :=
  IsCG E p [3] ∨ IsCG E p [4] →
    ∀ P ∈ pts, ∀ Q ∈ pts, E.good p (P + P) = false → E.good p (Q + Q) = false → E.good p (P - Q) = true

/-- the subgroup generated by a list of points -/
def gen (pts : List A) : AddSubgroup A := AddSubgroup.closure {P | P ∈ pts}

end EgrSpec

/-! ## Columns -/

/-- a column with its modulus is the image of the points under a map with kernel `L` -/
def ColRep (pts : List A) (c : ℕ × List ℤ) (L : AddSubgroup A) : Prop :=
  0 < c.1 ∧ ∃ ψ : A →+ ZMod c.1, ψ.ker = L ∧ ∀ (i : ℕ) (hi : i < pts.length), ((c.2.getD i 0 : ℤ) : ZMod c.1) = ψ pts[i]

theorem cols_index {pts : List A} (cols : List (ℕ × List ℤ)) (Ls : List (AddSubgroup A)) (h : List.Forall₂ (ColRep pts) cols Ls) :
    compMapImage (fun j => (cols.getD j (1, [])).1) pts.length cols.length (colsMat cols) =
      some (((Ls.foldr (· ⊓ ·) ⊤).relIndex (gen pts) : ℕ) : ℤ) := by
  have hlen := h.length_eq
  have hget : ∀ j (hj : j < cols.length), ColRep pts cols[j] (Ls[j]'(hlen ▸ hj)) :=
    fun j hj => (List.forall₂_iff_get.1 h).2 j hj (hlen ▸ hj)
  have hgetD : ∀ j (hj : j < cols.length), cols.getD j (1, []) = cols[j] := by
    intro j hj; simp [hj]
  rw [C110_comp_map_image _ _ _ _ (by intro j hj; rw [hgetD j hj]; exact (hget j hj).1)]
  congr 2
  have hψ : ∀ j : Fin cols.length, ∃ ψ : A →+ ZMod (cols.getD j (1, [])).1, ψ.ker = Ls[(j : ℕ)]'(hlen ▸ j.2) ∧
      ∀ (i : ℕ) (hi : i < pts.length), (colsMat cols i j : ZMod (cols.getD j (1, [])).1) = ψ pts[i] := by
    intro j
    have := hget j j.2
    rw [← hgetD j j.2] at this
    exact this.2
  choose ψ hker hval using hψ
  let Ψ : A →+ Prod' (fun j => (cols.getD j (1, [])).1) cols.length := AddMonoidHom.pi ψ
  have hK : Ls.foldr (· ⊓ ·) ⊤ = Ψ.ker := by
    have hmem : ∀ (l : List (AddSubgroup A)) x, x ∈ l.foldr (· ⊓ ·) ⊤ ↔ ∀ L ∈ l, x ∈ L := by
      intro l x
      induction l with
      | nil => simp
      | cons a l ih => rw [List.foldr_cons, AddSubgroup.mem_inf, ih]; simp
    ext x
    rw [hmem]
    constructor
    · intro hx
      funext j
      have h1 := hx _ (List.getElem_mem (l := Ls) (n := (j : ℕ)) (hlen ▸ j.2))
      rw [← hker j] at h1
      exact h1
    · intro hx L hL
      obtain ⟨j, hj, rfl⟩ := List.getElem_of_mem hL
      have h1 : ψ ⟨j, hlen ▸ hj⟩ x = 0 := congrFun hx ⟨j, hlen ▸ hj⟩
      have h2 : x ∈ (ψ ⟨j, hlen ▸ hj⟩).ker := h1
      rw [hker] at h2
      exact h2
  rw [hK, AddSubgroup.relIndex_ker]
  have : rowSpan (fun j => (cols.getD j (1, [])).1) pts.length cols.length (colsMat cols) = (gen pts).map Ψ := by
    unfold rowSpan gen
    rw [AddMonoidHom.map_closure]
    congr 1
    ext v
    constructor
    · rintro ⟨i, hi, hv⟩
      refine ⟨pts[i], List.getElem_mem hi, ?_⟩
      funext j
      rw [hv j]
      exact (hval j i hi).symm
    · rintro ⟨P, hP, rfl⟩
      obtain ⟨i, hi, rfl⟩ := List.getElem_of_mem hP
      exact ⟨i, hi, fun j => (hval j i hi).symm⟩
  rw [this]

/-! ## The non-cyclic case -/

/-- a linear map of `(ℤ/2)²` -/
def lin (t : (ZMod 2 × ZMod 2) × (ZMod 2 × ZMod 2)) : ZMod 2 × ZMod 2 →+ ZMod 2 × ZMod 2 where
  toFun x := (t.1.1 * x.1 + t.1.2 * x.2, t.2.1 * x.1 + t.2.2 * x.2)
  map_zero' := by simp
  map_add' x y := by ext <;> simp <;> ring

def linInj (t : (ZMod 2 × ZMod 2) × (ZMod 2 × ZMod 2)) : Prop := ∀ x : ZMod 2 × ZMod 2, lin t x = 0 → x = 0

instance (t : (ZMod 2 × ZMod 2) × (ZMod 2 × ZMod 2)) : Decidable (linInj t) := inferInstanceAs (Decidable (∀ x : ZMod 2 × ZMod 2, lin t x = 0 → x = 0))

theorem lin0 : ∃ t, linInj t := by decide +kernel
theorem lin1 : ∀ a, a ≠ 0 → ∃ t, linInj t ∧ lin t a = (1, 0) := by decide +kernel
theorem lin2 : ∀ a b, a ≠ 0 → b ≠ 0 → a ≠ b → ∃ t, linInj t ∧ lin t a = (1, 0) ∧ lin t b = (0, 1) := by decide +kernel
theorem lin3 : ∀ a b c, a ≠ 0 ∧ b ≠ 0 ∧ c ≠ 0 ∧ a ≠ b ∧ a ≠ c ∧ b ≠ c →
    ∃ t, linInj t ∧ lin t a = (1, 0) ∧ lin t b = (0, 1) ∧ lin t c = (1, 1) := by decide +kernel

/-- the images of the representatives -/
def RepsOk (φ : A →+ ZMod 2 × ZMod 2) (reps : List A) (t : (ZMod 2 × ZMod 2) × (ZMod 2 × ZMod 2)) : Prop :=
  ∀ k (hk : k < reps.length), ∀ v, ims k = some v → lin t (φ reps[k]) = ((v.1 : ZMod 2), (v.2 : ZMod 2))

theorem reps_base {φ : A →+ ZMod 2 × ZMod 2} {reps : List A} (h : (0 :: reps.map φ).Nodup) : ∃ t, linInj t ∧ RepsOk φ reps t := by
  have hl := h.length_le_card
  rw [show Fintype.card (ZMod 2 × ZMod 2) = 4 by decide] at hl
  rcases reps with _ | ⟨a, _ | ⟨b, _ | ⟨c, _ | ⟨d, r⟩⟩⟩⟩
  · obtain ⟨t, ht⟩ := lin0
    exact ⟨t, ht, fun k hk => by simp at hk⟩
  · simp only [List.map_cons, List.map_nil, List.nodup_cons, List.mem_cons, List.not_mem_nil, or_false] at h
    obtain ⟨t, ht, h1⟩ := lin1 (φ a) (Ne.symm h.1)
    refine ⟨t, ht, fun k hk v hv => ?_⟩
    have : k = 0 := by simpa using hk
    subst this
    simp only [ims, List.getElem?_cons_zero, Option.some.injEq] at hv
    subst hv
    rw [List.getElem_cons_zero, h1]; simp
  · simp only [List.map_cons, List.map_nil, List.nodup_cons, List.mem_cons, List.not_mem_nil, or_false, not_or] at h
    obtain ⟨t, ht, h1, h2⟩ := lin2 (φ a) (φ b) (Ne.symm h.1.1) (Ne.symm h.1.2) h.2.1
    refine ⟨t, ht, fun k hk v hv => ?_⟩
    have : k = 0 ∨ k = 1 := by simp at hk; omega
    rcases this with rfl | rfl
    · simp only [ims, List.getElem?_cons_zero, Option.some.injEq] at hv
      subst hv
      rw [List.getElem_cons_zero, h1]; simp
    · simp only [ims, List.getElem?_cons_zero, List.getElem?_cons_succ, Option.some.injEq] at hv
      subst hv
      rw [List.getElem_cons_succ, List.getElem_cons_zero, h2]; simp
  · simp only [List.map_cons, List.map_nil, List.nodup_cons, List.mem_cons, List.not_mem_nil, or_false, not_or] at h
    obtain ⟨t, ht, h1, h2, h3⟩ := lin3 (φ a) (φ b) (φ c) ⟨Ne.symm h.1.1, Ne.symm h.1.2.1, Ne.symm h.1.2.2, h.2.1.1, h.2.1.2, h.2.2.1⟩
    refine ⟨t, ht, fun k hk v hv => ?_⟩
    have : k = 0 ∨ k = 1 ∨ k = 2 := by simp at hk; omega
    rcases this with rfl | rfl | rfl
    · simp only [ims, List.getElem?_cons_zero, Option.some.injEq] at hv
      subst hv
      rw [List.getElem_cons_zero, h1]; simp
    · simp only [ims, List.getElem?_cons_zero, List.getElem?_cons_succ, Option.some.injEq] at hv
      subst hv
      rw [List.getElem_cons_succ, List.getElem_cons_zero, h2]; simp
    · simp only [ims, List.getElem?_cons_zero, List.getElem?_cons_succ, Option.some.injEq] at hv
      subst hv
      rw [List.getElem_cons_succ, List.getElem_cons_succ, List.getElem_cons_zero, h3]; simp
  · simp only [List.length_cons, List.length_map] at hl
    omega

variable [DecidableEq A]

theorem sameComp_ker {C : Type} [AddCommGroup C] {E : Env A} {p : ℤ} {φ : A →+ C} (hg : ∀ P, E.good p P = true ↔ φ P = 0) (P Q : A) :
    sameComp E p P Q = true ↔ φ P = φ Q := by
  unfold sameComp
  split
  · rename_i h; simp [h]
  · rw [hg, map_sub, sub_eq_zero]

theorem findCoset_some {C : Type} [AddCommGroup C] {E : Env A} {p : ℤ} {φ : A →+ C} (hg : ∀ P, E.good p P = true ↔ φ P = 0) (P : A) :
    ∀ (reps : List A) (c : ℕ), findCoset E p P reps = some c → ∃ hc : c < reps.length, φ P = φ reps[c] := by
  intro reps
  induction reps with
  | nil => intro c h; simp [findCoset] at h
  | cons R Rs ih =>
    intro c h
    unfold findCoset at h
    split at h
    · rename_i hs
      have : c = 0 := (Option.some.inj h).symm
      subst this
      exact ⟨by simp, (sameComp_ker hg P R).1 hs⟩
    · rcases hf : findCoset E p P Rs with _ | c'
      · rw [hf] at h; simp at h
      · rw [hf] at h
        have : c = c' + 1 := (Option.some.inj h).symm
        subst this
        obtain ⟨h1, h2⟩ := ih c' hf
        exact ⟨by simpa using h1, h2⟩

theorem findCoset_none {C : Type} [AddCommGroup C] {E : Env A} {p : ℤ} {φ : A →+ C} (hg : ∀ P, E.good p P = true ↔ φ P = 0) (P : A) :
    ∀ (reps : List A), findCoset E p P reps = none → φ P ∉ reps.map φ := by
  intro reps
  induction reps with
  | nil => intro _; simp
  | cons R Rs ih =>
    intro h
    unfold findCoset at h
    split at h
    · exact absurd h (by simp)
    · rename_i hs
      have h2 : findCoset E p P Rs = none := by simpa using h
      rw [List.map_cons, List.mem_cons, not_or]
      exact ⟨fun e => hs ((sameComp_ker hg P R).2 e), ih h2⟩

theorem mapNc_spec {E : Env A} {p : ℤ} {φ : A →+ ZMod 2 × ZMod 2} (hg : ∀ P, E.good p P = true ↔ φ P = 0) :
    ∀ (Ps reps : List A), (0 :: reps.map φ).Nodup → ∃ im t, mapNc E p Ps reps = some im ∧ linInj t ∧ RepsOk φ reps t ∧
      List.Forall₂ (fun P (v : ℤ × ℤ) => ((v.1 : ZMod 2), (v.2 : ZMod 2)) = lin t (φ P)) Ps im := by
  intro Ps
  induction Ps with
  | nil =>
    intro reps h
    obtain ⟨t, h1, h2⟩ := reps_base h
    exact ⟨[], t, rfl, h1, h2, List.Forall₂.nil⟩
  | cons P Ps ih =>
    intro reps h
    have hl := h.length_le_card
    rw [show Fintype.card (ZMod 2 × ZMod 2) = 4 by decide, List.length_cons, List.length_map] at hl
    have imsSome : ∀ c, c < 3 → ∃ v, ims c = some v := by
      intro c hc
      have : c = 0 ∨ c = 1 ∨ c = 2 := by omega
      rcases this with rfl | rfl | rfl <;> exact ⟨_, rfl⟩
    unfold mapNc
    by_cases hP : E.good p P = true
    · rw [if_pos hP]
      obtain ⟨im, t, h1, h2, h3, h4⟩ := ih reps h
      refine ⟨(0, 0) :: im, t, by rw [h1]; rfl, h2, h3, List.Forall₂.cons ?_ h4⟩
      rw [(hg P).1 hP, map_zero]; simp
    · rw [if_neg hP]
      rcases hf : findCoset E p P reps with _ | c
      · have hnew : (0 :: (reps ++ [P]).map φ).Nodup := by
          have h5 := findCoset_none hg P reps hf
          rw [List.map_append, List.map_singleton, ← List.cons_append, List.nodup_append]
          refine ⟨h, by simp, ?_⟩
          intro a ha b hb
          rw [List.mem_singleton.1 hb]
          rcases List.mem_cons.1 ha with h6 | h6
          · rw [h6]; exact fun e => hP ((hg P).2 e.symm)
          · exact fun e => h5 (e ▸ h6)
        have hl2 := hnew.length_le_card
        rw [show Fintype.card (ZMod 2 × ZMod 2) = 4 by decide] at hl2
        simp only [List.length_cons, List.length_map, List.length_append, List.length_nil] at hl2
        obtain ⟨v, hv⟩ := imsSome reps.length (by omega)
        obtain ⟨im, t, h1, h2, h3, h4⟩ := ih (reps ++ [P]) hnew
        refine ⟨v :: im, t, ?_, h2, ?_, List.Forall₂.cons ?_ h4⟩
        · simp only []
          rw [hv, Option.bind_some, h1]; rfl
        · intro k hk w hw
          have := h3 k (by simp; omega) w hw
          rwa [List.getElem_append_left hk] at this
        · have := h3 reps.length (by simp) v hv
          rw [List.getElem_append_right (le_refl _)] at this
          simp only [Nat.sub_self, List.getElem_cons_zero] at this
          exact this.symm
      · obtain ⟨hc, he⟩ := findCoset_some hg P reps c hf
        obtain ⟨v, hv⟩ := imsSome c (by omega)
        obtain ⟨im, t, h1, h2, h3, h4⟩ := ih reps h
        refine ⟨v :: im, t, ?_, h2, h3, List.Forall₂.cons ?_ h4⟩
        · simp only []
          rw [hv, Option.bind_some, h1]; rfl
        · rw [he]; exact (h3 c hc v hv).symm

/-! ## The columns of one place -/

omit [DecidableEq A] in
theorem colRep_map {pts : List A} {N : ℕ} (hN : 0 < N) (f : A → ℤ) (ψ : A →+ ZMod N) (h : ∀ P ∈ pts, (f P : ZMod N) = ψ P) :
    ColRep pts (N, pts.map f) ψ.ker := by
  refine ⟨hN, ψ, rfl, fun i hi => ?_⟩
  have : (pts.map f).getD i 0 = f pts[i] := by simp [hi]
  simp only [this]
  exact h _ (List.getElem_mem hi)

theorem placeCols_spec {E : Env A} {p : ℤ} {K : AddSubgroup A} (h : PlaceOk E p) (hK : IsGood E p K) (pts : List A)
    (hs : SignOk E p pts) :
    ∃ cols Ls, placeCols E pts p = some cols ∧ List.Forall₂ (ColRep pts) cols Ls ∧ Ls.foldr (· ⊓ ·) ⊤ = K := by
  rcases h with ⟨N, φ, hc, hok⟩ | ⟨hc, φ, hg⟩
  · have hKer : K = φ.ker := by
      ext x; rw [hK x, hok.good x]; rfl
    have hpos := hok.pos
    unfold placeCols
    simp only [isCG_iff.1 hc]
    rw [if_pos (by simp)]
    by_cases h1 : N = 1
    · rw [if_pos (show [N].headD 0 = 1 from h1)]
      subst h1
      refine ⟨_, [φ.ker], rfl, List.Forall₂.cons (colRep_map one_pos _ φ ?_) List.Forall₂.nil, by simp [hKer]⟩
      intro P _
      exact Subsingleton.elim _ _
    · rw [if_neg (show ¬ [N].headD 0 = 1 from h1)]
      have key : ∃ ψ : A →+ ZMod N, ψ.ker = φ.ker ∧ ∀ P ∈ pts, ((imageCG E p P [N] : ℤ) : ZMod N) = ψ P := by
        by_cases h5 : 5 ≤ N
        · obtain ⟨u, hu⟩ := hok.image h5
          refine ⟨(AddMonoidHom.mulLeft (u : ZMod N)).comp φ, ?_, fun P _ => ?_⟩
          · ext x
            show (u : ZMod N) * φ x = 0 ↔ φ x = 0
            exact Units.mul_right_eq_zero u
          · have : imageCG E p P [N] = E.imageIm p P N := by
              have a2 : ¬ (N = 2 ∨ N = 3) := by omega
              have a3 : N ≠ 4 := by omega
              simp [imageCG, h1, a2, a3]
            rw [this, hu]; rfl
        · have h4 : N = 2 ∨ N = 3 ∨ N = 4 := by omega
          rcases h4 with rfl | rfl | rfl
          · refine ⟨φ, rfl, fun P _ => ?_⟩
            have hgP := hok.good P
            have e : imageCG E p P [2] = if E.good p P then 0 else 1 := by simp [imageCG]
            rw [e]
            generalize φ P = x at *
            by_cases hx : E.good p P = true
            · rw [if_pos hx, hgP.1 hx]; simp
            · rw [if_neg hx]
              have : x ≠ 0 := fun h => hx (hgP.2 h)
              revert this; clear hgP; revert x; decide
          · have hs := hs (Or.inl hc)
            have e : ∀ P, imageCG E p P [3] = if E.good p P then 0 else 1 := fun P => by simp [imageCG]
            have g2 : ∀ P, E.good p (P + P) = false ↔ φ P ≠ 0 := by
              intro P
              rw [← Bool.not_eq_true, hok.good, map_add]
              generalize φ P = x
              revert x; decide
            -- the sign
            by_cases hex : ∃ P ∈ pts, φ P = 2
            · obtain ⟨Q, hQ, hQ2⟩ := hex
              refine ⟨-φ, ?_, fun P hP => ?_⟩
              · ext x
                show -(φ x) = 0 ↔ φ x = 0
                exact neg_eq_zero
              · rw [e, AddMonoidHom.neg_apply]
                by_cases hx : E.good p P = true
                · rw [if_pos hx, (hok.good P).1 hx]; simp
                · rw [if_neg hx]
                  have h0 : φ P ≠ 0 := fun h => hx ((hok.good P).2 h)
                  have := hs P hP Q hQ ((g2 P).2 h0) ((g2 Q).2 (by rw [hQ2]; decide))
                  rw [hok.good, map_sub, sub_eq_zero, hQ2] at this
                  rw [this]; decide
            · push Not at hex
              refine ⟨φ, rfl, fun P hP => ?_⟩
              rw [e]
              by_cases hx : E.good p P = true
              · rw [if_pos hx, (hok.good P).1 hx]; simp
              · rw [if_neg hx]
                have h0 : φ P ≠ 0 := fun h => hx ((hok.good P).2 h)
                have h2 := hex P hP
                generalize φ P = x at *
                clear e g2 hs hK hKer hok hx
                revert x; decide
          · have hs := hs (Or.inr hc)
            have e : ∀ P, imageCG E p P [4] = if E.good p P then 0 else if E.good p (P + P) then 2 else 1 := fun P => by simp [imageCG]
            have g2 : ∀ P, E.good p (P + P) = false ↔ φ P = 1 ∨ φ P = 3 := by
              intro P
              rw [← Bool.not_eq_true, hok.good, map_add]
              generalize φ P = x
              revert x; decide
            have g3 : ∀ P, E.good p P = true ↔ φ P = 0 := hok.good
            have g4 : ∀ P, E.good p (P + P) = true ↔ φ P + φ P = 0 := fun P => by rw [hok.good, map_add]
            have fin1 : ∀ x : ZMod 4, x ≠ 0 → x + x = 0 → ((2 : ℤ) : ZMod 4) = x := by decide
            have fin2 : ∀ x : ZMod 4, x ≠ 0 → x + x = 0 → ((2 : ℤ) : ZMod 4) = -x := by decide
            by_cases hex : ∃ P ∈ pts, φ P = 3
            · obtain ⟨Q, hQ, hQ2⟩ := hex
              refine ⟨-φ, ?_, fun P hP => ?_⟩
              · ext x
                show -(φ x) = 0 ↔ φ x = 0
                exact neg_eq_zero
              · rw [e, AddMonoidHom.neg_apply]
                by_cases hx : E.good p P = true
                · rw [if_pos hx, (hok.good P).1 hx]; simp
                · rw [if_neg hx]
                  have h0 : φ P ≠ 0 := fun h => hx ((hok.good P).2 h)
                  by_cases hy : E.good p (P + P) = true
                  · rw [if_pos hy]
                    exact fin2 _ h0 ((g4 P).1 hy)
                  · rw [if_neg hy]
                    have := hs P hP Q hQ (by simpa using hy) ((g2 Q).2 (Or.inr hQ2))
                    rw [hok.good, map_sub, sub_eq_zero, hQ2] at this
                    rw [this]; decide
            · push Not at hex
              refine ⟨φ, rfl, fun P hP => ?_⟩
              rw [e]
              by_cases hx : E.good p P = true
              · rw [if_pos hx, (hok.good P).1 hx]; simp
              · rw [if_neg hx]
                have h0 : φ P ≠ 0 := fun h => hx ((hok.good P).2 h)
                by_cases hy : E.good p (P + P) = true
                · rw [if_pos hy]
                  exact fin1 _ h0 ((g4 P).1 hy)
                · rw [if_neg hy]
                  have h5 := (g2 P).1 (by simpa using hy)
                  rcases h5 with h5 | h5
                  · rw [h5]; decide
                  · exact absurd h5 (hex P hP)
      obtain ⟨ψ, hψ, hv⟩ := key
      refine ⟨_, [ψ.ker], rfl, List.Forall₂.cons (colRep_map hpos _ ψ hv) List.Forall₂.nil, ?_⟩
      simp [hKer, hψ]
  · have hKer : K = φ.ker := by
      ext x; rw [hK x, hg x]; rfl
    unfold placeCols
    simp only [isCG_iff.1 hc]
    rw [if_neg (by simp)]
    obtain ⟨im, t, h1, h2, _, h4⟩ := mapNc_spec hg pts [] (by simp)
    rw [h1, Option.map_some]
    let ψ1 : A →+ ZMod 2 := ((AddMonoidHom.fst (ZMod 2) (ZMod 2)).comp (lin t)).comp φ
    let ψ2 : A →+ ZMod 2 := ((AddMonoidHom.snd (ZMod 2) (ZMod 2)).comp (lin t)).comp φ
    have hlen := h4.length_eq
    have hget := (List.forall₂_iff_get.1 h4).2
    refine ⟨_, [ψ1.ker, ψ2.ker], rfl, List.Forall₂.cons ⟨by norm_num, ψ1, rfl, ?_⟩ (List.Forall₂.cons ⟨by norm_num, ψ2, rfl, ?_⟩ List.Forall₂.nil), ?_⟩
    · intro i hi
      have h5 := hget i hi (hlen ▸ hi)
      have e : (im.map (·.1)).getD i 0 = (im[i]'(hlen ▸ hi)).1 := by simp [hlen ▸ hi]
      simp only [e]
      exact congrArg Prod.fst h5
    · intro i hi
      have h5 := hget i hi (hlen ▸ hi)
      have e : (im.map (·.2)).getD i 0 = (im[i]'(hlen ▸ hi)).2 := by simp [hlen ▸ hi]
      simp only [e]
      exact congrArg Prod.snd h5
    · rw [hKer]
      ext x
      simp only [List.foldr_cons, List.foldr_nil, inf_top_eq, AddSubgroup.mem_inf]
      constructor
      · rintro ⟨a, b⟩
        exact h2 (φ x) (Prod.ext a b)
      · intro hx
        have hx : φ x = 0 := hx
        constructor
        · show (lin t (φ x)).1 = 0
          rw [hx, map_zero]; rfl
        · show (lin t (φ x)).2 = 0
          rw [hx, map_zero]; rfl

theorem allCols_spec {E : Env A} {K : ℤ → AddSubgroup A} (pts : List A) : ∀ (pl : List ℤ), (∀ p ∈ pl, PlaceOk E p) →
    (∀ p ∈ pl, IsGood E p (K p)) → (∀ p ∈ pl, SignOk E p pts) →
    ∃ cols Ls, allCols E pts pl = some cols ∧ List.Forall₂ (ColRep pts) cols Ls ∧
      ∀ x, x ∈ Ls.foldr (· ⊓ ·) ⊤ ↔ ∀ p ∈ pl, x ∈ K p := by
  intro pl
  induction pl with
  | nil => intro _ _ _; exact ⟨[], [], rfl, List.Forall₂.nil, by simp⟩
  | cons p pl ih =>
    intro h hK hs
    obtain ⟨c1, L1, a1, a2, a3⟩ := placeCols_spec (h p (by simp)) (hK p (by simp)) pts (hs p (by simp))
    obtain ⟨c2, L2, b1, b2, b3⟩ := ih (fun q hq => h q (by simp [hq])) (fun q hq => hK q (by simp [hq])) (fun q hq => hs q (by simp [hq]))
    refine ⟨c1 ++ c2, L1 ++ L2, ?_, List.rel_append a2 b2, ?_⟩
    · unfold allCols
      rw [a1, Option.bind_some, b1]; rfl
    · intro x
      have hmem : ∀ (l : List (AddSubgroup A)) x, x ∈ l.foldr (· ⊓ ·) ⊤ ↔ ∀ L ∈ l, x ∈ L := by
        intro l x
        induction l with
        | nil => simp
        | cons a l ih => rw [List.foldr_cons, AddSubgroup.mem_inf, ih]; simp
      rw [hmem]
      have e1 := hmem L1 x
      have e2 := hmem L2 x
      rw [a3] at e1
      rw [b3] at e2
      constructor
      · intro hx q hq
        rcases List.mem_cons.1 hq with rfl | hq
        · exact e1.2 (fun L hL => hx L (List.mem_append_left _ hL))
        · exact e2.2 (fun L hL => hx L (List.mem_append_right _ hL)) q hq
      · intro hx L hL
        rcases List.mem_append.1 hL with hL | hL
        · exact e1.1 (hx p (by simp)) L hL
        · exact e2.1 (fun q hq => hx q (by simp [hq])) L hL

/-- **C111** (`egr_index`), when at places with component group of order 3 or 4 the points not killed by 2 are in one component: the
function returns the index, in the group generated by the points, of the subgroup of points with good reduction at all the bad primes
(and in the connected component, with `real_too`). -/
theorem C111_egr_index_partial {E : Env A} {K : ℤ → AddSubgroup A} (bad : List ℤ) (pts : List A) (real : Bool)
    (h : ∀ p ∈ bad, PlaceOk E p) (hK : ∀ p ∈ bad, IsGood E p (K p)) (hs : ∀ p ∈ bad, SignOk E p pts)
    (h0 : real = true → PlaceOk E 0) (hK0 : real = true → IsGood E 0 (K 0)) (hconn : E.conncomp = 1 ∨ E.conncomp = 2) :
    ∃ H : AddSubgroup A, (∀ P, P ∈ H ↔ (∀ p ∈ bad, E.good p P = true) ∧ (real = true → E.good 0 P = true)) ∧
      egrIndex E bad pts real = some (H.relIndex (gen pts) : ℤ) := by
  have conn : real = true → E.conncomp ≠ 2 → ∀ P, E.good 0 P = true := by
    intro hr hc P
    rcases h0 hr with ⟨N, φ, hcg, hok⟩ | ⟨hcg, _⟩
    · have hN : E.conncomp = N := by
        simpa [componentGroup] using isCG_iff.1 hcg
      have h1 : N = 1 := by omega
      subst h1
      exact (hok.good P).2 (Subsingleton.elim _ _)
    · simp [isCG_iff, componentGroup] at hcg
  set pl := if real && E.conncomp == 2 then bad ++ [0] else bad with hpl
  have hmem : ∀ p ∈ pl, p ∈ bad ∨ (p = 0 ∧ real = true) := by
    intro p hp
    rw [hpl] at hp
    split at hp
    · rename_i hc
      simp only [Bool.and_eq_true] at hc
      rcases List.mem_append.1 hp with h1 | h1
      · exact Or.inl h1
      · exact Or.inr ⟨List.mem_singleton.1 h1, hc.1⟩
    · exact Or.inl hp
  have s0 : SignOk E 0 pts := by
    intro hh
    simp only [isCG_iff, componentGroup, if_pos] at hh
    rcases hh with hh | hh <;> simp at hh <;> omega
  obtain ⟨cols, Ls, e1, e2, e3⟩ := allCols_spec (K := K) pts pl
    (fun p hp => (hmem p hp).elim (h p) (fun q => q.1 ▸ h0 q.2))
    (fun p hp => (hmem p hp).elim (hK p) (fun q => by rw [q.1]; exact hK0 q.2))
    (fun p hp => (hmem p hp).elim (hs p) (fun q => by rw [q.1]; exact s0))
  refine ⟨Ls.foldr (· ⊓ ·) ⊤, fun P => ?_, ?_⟩
  · rw [e3]
    constructor
    · intro hh
      refine ⟨fun p hp => (hK p hp P).1 (hh p ?_), fun hr => ?_⟩
      · rw [hpl]; split
        · exact List.mem_append_left _ hp
        · exact hp
      · by_cases hc : E.conncomp = 2
        · exact (hK0 hr P).1 (hh 0 (by rw [hpl]; simp [hr, hc]))
        · exact conn hr hc P
    · rintro ⟨g1, g2⟩ p hp
      rcases hmem p hp with h1 | ⟨rfl, h1⟩
      · exact (hK p h1 P).2 (g1 p h1)
      · exact (hK0 h1 P).2 (g2 h1)
  · unfold egrIndex
    by_cases hn : pts.length = 0
    · rw [if_pos hn]
      have : pts = [] := List.length_eq_zero_iff.1 hn
      subst this
      have hb : gen ([] : List A) = ⊥ := by
        unfold gen
        rw [AddSubgroup.closure_eq_bot_iff]
        intro x hx
        simp at hx
      rw [hb, AddSubgroup.relIndex_bot_right]; rfl
    · rw [if_neg hn, ← hpl, e1, Option.bind_some]
      exact cols_index cols Ls e2

end Eclib.Egr
