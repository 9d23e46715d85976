import Verif.Split.Chain
import Verif.Lift.VecProps

/-!
# C114: the search for eigenspaces
-/

namespace Eclib.Split

set_option linter.unusedSectionVars false

open Svec (T)
open Smat (SM Rep)
open Elim (SSub SubOk mq)
open Matrix Module

variable {q : ℕ} [hq : Fact q.Prime] {n : ℕ}

/-! ## Specification -/

namespace Spec

/-- a list of integers which generates the space modulo `q` -/
def Gen {q n : ℕ} (S : Submodule (ZMod q) (Fin n → ZMod q)) (w : List ℤ) : Prop :=
  w.length = n ∧ Submodule.span (ZMod q) {vq q n w} = S

/-- The system of eigenvalues `e` is to be found: all eigenvalues are in the given ranges, the common eigenspace has the dimension looked for
at a sufficient depth and is not old, and the search does not stop before: no shorter system is all old, or has the dimension looked for at a
sufficient depth.  (`j0` is the depth at which the search begins.) -/
structure Found (F : Finder) (A : ℤ → Matrix (Fin n) (Fin n) ℤ) (q : ℕ) (old : List ℤ → ℤ) (j0 : ℕ) (e : List ℤ) : Prop where
  range : ∀ (i : ℕ) (h : i < e.length), j0 ≤ i → e[i] ∈ F.eigrange i
  depth : e.length ≤ F.maxdepth
  min : F.mindepth < e.length
  dim : finrank (ZMod q) (E q A F.denom e) = F.targetdim
  new : old e ≠ finrank (ZMod q) (E q A F.denom e)
  before : ∀ j, j0 ≤ j → j < e.length → old (e.take j) ≠ finrank (ZMod q) (E q A F.denom (e.take j)) ∧
    ¬(finrank (ZMod q) (E q A F.denom (e.take j)) = F.targetdim ∧ F.mindepth < j)

/-- the vectors stored for the system `r.eigs` -/
def VecOk (F : Finder) (A : ℤ → Matrix (Fin n) (Fin n) ℤ) (q : ℕ) (r : Rec) : Prop :=
  if F.plusflag then r.bminus = [] ∧ ∃ w, Gen (E q A F.denom r.eigs) w ∧ F.lift w = some r.bplus
  else if finrank (ZMod q) (E q A F.denom r.eigs ⊓ K q A F.denom : Submodule (ZMod q) (Fin n → ZMod q)) = 1 then
    (∃ w, Gen (E q A F.denom r.eigs ⊓ K q A F.denom) w ∧ F.lift w = some r.bplus) ∧
    if finrank (ZMod q) (E q A F.denom r.eigs ⊓ K q A (-F.denom) : Submodule (ZMod q) (Fin n → ZMod q)) = 1 then
      ∃ w, Gen (E q A F.denom r.eigs ⊓ K q A (-F.denom)) w ∧ F.lift w = some r.bminus
    else r.bminus = []
  else r.bplus = [] ∧ r.bminus = []

/-- the lift of a basis vector throws an exception -/
def Throws (F : Finder) (A : ℤ → Matrix (Fin n) (Fin n) ℤ) (q : ℕ) (e : List ℤ) : Prop :=
  ∃ w, F.lift w = none ∧ (Gen (E q A F.denom e) w ∨ Gen (E q A F.denom e ⊓ K q A F.denom) w ∨ Gen (E q A F.denom e ⊓ K q A (-F.denom)) w)

end Spec

open Eclib.Split.Spec

/-! ## The vectors -/

theorem gen_one {M : Matrix (Fin n) (Fin 1) (ZMod q)} {w : List ℤ} (hl : w.length = n)
    (hw : vq q n w = M *ᵥ fun _ => 1) : Gen (Rg M) w := by
  refine ⟨hl, ?_⟩
  rw [hw]
  ext v
  rw [Submodule.mem_span_singleton]
  constructor
  · rintro ⟨a, rfl⟩
    exact ⟨a • fun _ => 1, by rw [mulVecLin_apply, mulVec_smul]⟩
  · rintro ⟨y, rfl⟩
    refine ⟨y 0, ?_⟩
    rw [mulVecLin_apply, ← mulVec_smul]
    congr 1
    funext i
    rw [Fin.fin_one_eq_zero i]
    simp

/-- the invariants of a node of the tree -/
structure Node (q : ℕ) [Fact q.Prime] (A : ℤ → Matrix (Fin n) (Fin n) ℤ) (d : ℤ) (chain : List SSub) (k : ℕ) (M : Matrix (Fin n) (Fin k) (ZMod q))
    (piv : Fin k → Fin n) (e : List ℤ) : Prop where
  ch : Chain q n chain k M piv
  rg : Rg M = E q A d e
  len : chain.length = e.length

theorem E_inv {A : ℤ → Matrix (Fin n) (Fin n) ℤ} (hcomm : ∀ i j, mq q (A i) * mq q (A j) = mq q (A j) * mq q (A i)) (d : ℤ) (e : List ℤ) (ip : ℤ) :
    ∀ v ∈ E q A d e, mq q (A ip) *ᵥ v ∈ E q A d e := by
  intro v hv i h
  rw [mulVec_mulVec, hcomm, ← mulVec_mulVec, hv i h, mulVec_smul]

theorem sub_nest {F : Finder} {A : ℤ → Matrix (Fin n) (Fin n) ℤ} (h : Ok q F A) {chain : List SSub} {k : ℕ}
    {M : Matrix (Fin n) (Fin k) (ZMod q)} {piv : Fin k → Fin n} {e : List ℤ} (hn : Node q A F.denom chain k M piv e) (he : e ≠ []) (ip : ℤ) :
    ∃ m, ∃ C : Matrix (Fin k) (Fin k) ℤ, nestedSubmat F ip chain k = some m ∧ Rep True m C ∧ mq q (A ip) * M = M * mq q C := by
  have hlen := hn.len
  cases chain with
  | nil =>
    exact absurd (List.length_eq_zero_iff.1 (by simpa using hlen.symm)) he
  | cons s rest =>
    exact nested_ok h ip hn.ch (by rw [hn.rg]; exact E_inv h.comm _ _ _)

theorem submat_ok {F : Finder} {A : ℤ → Matrix (Fin n) (Fin n) ℤ} (h : Ok q F A) {chain : List SSub} {k : ℕ}
    {M : Matrix (Fin n) (Fin k) (ZMod q)} {piv : Fin k → Fin n} {e : List ℤ} (hn : Node q A F.denom chain k M piv e) :
    ∃ m, ∃ C : Matrix (Fin k) (Fin k) ℤ, submat F chain k e.length = some m ∧ Rep True m C ∧ mq q (A e.length) * M = M * mq q C := by
  unfold submat
  by_cases he : e = []
  · subst he
    have hc := hn.ch
    have : chain = [] := List.length_eq_zero_iff.1 (by simpa using hn.len)
    subst this
    cases hc
    obtain ⟨m, e1, h1⟩ := h.opmat0
    exact ⟨m, A 0, by simpa using e1, h1, by simp⟩
  · rw [if_neg (by simpa using he)]
    exact sub_nest h hn he _

/-- one vector of a one-dimensional relative eigenspace -/
theorem vec_ok {F : Finder} {A : ℤ → Matrix (Fin n) (Fin n) ℤ} (h : Ok q F A) {chain : List SSub} {k : ℕ}
    {M : Matrix (Fin n) (Fin k) (ZMod q)} {piv : Fin k → Fin n} (hc : Chain q n chain k M piv) {s : SSub}
    {B : Matrix (Fin k) (Fin 1) ℤ} {p : Fin 1 → Fin k} (hs : SubOk q s B p) :
    ∃ v w, firstCol s = some v ∧ climb F chain v = some w ∧ Gen (Rg (M * mq q B)) w := by
  obtain ⟨v, e1, hl, hr, hv⟩ := firstCol_ok hs
  obtain ⟨w, e2, hl2, hw⟩ := climb_ok h.p hc v hl hr
  refine ⟨v, w, e1, e2, gen_one hl2 ?_⟩
  rw [hw, hv, mulVec_mulVec]

theorem basis_ok {F : Finder} {A : ℤ → Matrix (Fin n) (Fin n) ℤ} (h : Ok q F A) {chain : List SSub} {k : ℕ}
    {M : Matrix (Fin n) (Fin k) (ZMod q)} {piv : Fin k → Fin n} {e : List ℤ} (hn : Node q A F.denom chain k M piv e) (he : e ≠ [])
    (hk : k = F.targetdim) :
    (makeBasis F chain k = none ∧ Throws F A q e) ∨ ∃ b, makeBasis F chain k = some b ∧ VecOk F A q ⟨e, b.1, b.2⟩ := by
  have hlen : chain.length ≠ 0 := by
    rw [hn.len]
    simpa using he
  have h1q : (1 : ℤ) < q := by exact_mod_cast hq.out.one_lt
  unfold makeBasis VecOk
  cases hpf : F.plusflag with
  | true =>
    rw [if_pos rfl, if_neg hlen]
    simp only [if_true]
    have hk1 : k = 1 := by rw [hk, Finder.targetdim, hpf]; rfl
    subst hk1
    obtain ⟨w, e2, hl2, hw⟩ := climb_ok (F := F) h.p hn.ch [1] rfl (by simpa using h1q)
    have hg : Gen (E q A F.denom e) w := by
      rw [← hn.rg]
      refine gen_one hl2 ?_
      rw [hw]
      congr 1
      funext i
      rw [Fin.fin_one_eq_zero i]
      simp [vq]
    unfold makeBasis2
    rw [e2, Option.bind_some]
    cases hlift : F.lift w with
    | none => exact Or.inl ⟨rfl, w, hlift, Or.inl hg⟩
    | some w' => exact Or.inr ⟨(w', []), rfl, rfl, w, hg, hlift⟩
  | false =>
    simp only [Bool.false_eq_true, if_false]
    obtain ⟨c, C, ec, hC, hT⟩ := sub_nest h hn he (-1)
    rw [ec, Option.bind_some]
    obtain ⟨s1, k1, B1, p1, e1, hs1, hnc1, hr1⟩ := eigen_ok h hn.ch hC hT F.denom
    obtain ⟨s2, k2, B2, p2, e2, hs2, hnc2, hr2⟩ := eigen_ok h hn.ch hC hT (-F.denom)
    have hE1 : Rg (M * mq q B1) = E q A F.denom e ⊓ K q A F.denom := by
      ext v
      rw [hr1, hn.rg]
      rfl
    have hE2 : Rg (M * mq q B2) = E q A F.denom e ⊓ K q A (-F.denom) := by
      ext v
      rw [hr2, hn.rg]
      rfl
    have hf1 := (hn.ch.cons hs1).finrank
    have hf2 := (hn.ch.cons hs2).finrank
    rw [hE1] at hf1
    rw [hE2] at hf2
    rw [e1, Option.bind_some, hnc1]
    simp only [hf1, hf2]
    by_cases hk1 : k1 = 1
    · subst hk1
      simp only [ne_eq, not_true_eq_false, if_false, if_true]
      obtain ⟨v1, w1, f1, c1, g1⟩ := vec_ok h hn.ch hs1
      rw [hE1] at g1
      rw [f1, Option.bind_some, makeBasis2, c1, Option.bind_some]
      cases hl1 : F.lift w1 with
      | none => exact Or.inl ⟨rfl, w1, hl1, Or.inr (Or.inl g1)⟩
      | some u1 =>
        rw [Option.bind_some, e2, Option.bind_some, hnc2]
        by_cases hk2 : k2 = 1
        · subst hk2
          simp only [not_true_eq_false, if_false, if_true]
          obtain ⟨v2, w2, f2, c2, g2⟩ := vec_ok h hn.ch hs2
          rw [hE2] at g2
          rw [f2, Option.bind_some, makeBasis2, c2, Option.bind_some]
          cases hl2 : F.lift w2 with
          | none => exact Or.inl ⟨rfl, w2, hl2, Or.inr (Or.inr g2)⟩
          | some u2 => exact Or.inr ⟨(u1, u2), rfl, ⟨w1, g1, hl1⟩, w2, g2, hl2⟩
        · simp only [hk2, not_false_eq_true, if_true, if_false]
          exact Or.inr ⟨(u1, []), rfl, ⟨w1, g1, hl1⟩, rfl⟩
    · simp only [ne_eq, hk1, not_false_eq_true, if_true, if_false]
      exact Or.inr ⟨([], []), rfl, rfl, rfl⟩

/-! ## The search -/

theorem mem_E_append {A : ℤ → Matrix (Fin n) (Fin n) ℤ} {d : ℤ} {e : List ℤ} {a : ℤ} {v : Fin n → ZMod q} :
    v ∈ E q A d (e ++ [a]) ↔ v ∈ E q A d e ∧ mq q (A e.length) *ᵥ v = ((a * d : ℤ) : ZMod q) • v := by
  constructor
  · intro h
    refine ⟨fun i hi => ?_, ?_⟩
    · have := h i (by simp; omega)
      rwa [List.getElem_append_left hi] at this
    · have := h e.length (by simp)
      simpa using this
  · rintro ⟨h1, h2⟩ i hi
    by_cases hlt : i < e.length
    · rw [List.getElem_append_left hlt]
      exact h1 i hlt
    · have : i = e.length := by
        simp at hi
        omega
      subst this
      simpa using h2

theorem E_mono {A : ℤ → Matrix (Fin n) (Fin n) ℤ} {d : ℤ} {e e' : List ℤ} (h : e <+: e') : E q A d e' ≤ E q A d e := by
  obtain ⟨t, rfl⟩ := h
  intro v hv i hi
  have := hv i (by simp; omega)
  rwa [List.getElem_append_left hi] at this

theorem mapM_none {α β : Type} {f : α → Option β} : ∀ {l : List α} {a : α}, a ∈ l → f a = none → l.mapM f = none
  | b :: l, a, ha, h => by
    rw [List.mapM_cons]
    rcases List.mem_cons.1 ha with rfl | ha
    · rw [h]
      rfl
    · rw [mapM_none ha h]
      cases f b <;> rfl

theorem mapM_some {α β : Type} {f : α → Option β} {g : α → β} : ∀ {l : List α}, (∀ a ∈ l, f a = some (g a)) → l.mapM f = some (l.map g)
  | [], _ => rfl
  | a :: l, h => by
    rw [List.mapM_cons, h a List.mem_cons_self, mapM_some (fun b hb => h b (List.mem_cons_of_mem _ hb))]
    rfl

/-- what the search from a node gives -/
def Out (F : Finder) (A : ℤ → Matrix (Fin n) (Fin n) ℤ) (q : ℕ) (old : List ℤ → ℤ) (e : List ℤ) (o : Option (List Rec)) : Prop :=
  (o = none ∧ ∃ e', e <+: e' ∧ Found F A q old e.length e' ∧ Throws F A q e') ∨
  ∃ out, o = some out ∧ (out.map Rec.eigs).Nodup ∧ (∀ e', e' ∈ out.map Rec.eigs ↔ e <+: e' ∧ Found F A q old e.length e') ∧
    ∀ r ∈ out, VecOk F A q r

theorem found_step {F : Finder} {A : ℤ → Matrix (Fin n) (Fin n) ℤ} {old : List ℤ → ℤ} {e e' : List ℤ} {a : ℤ} (hpre : e ++ [a] <+: e')
    (ha : a ∈ F.eigrange e.length) (h1 : old e ≠ finrank (ZMod q) (E q A F.denom e))
    (h2 : ¬(finrank (ZMod q) (E q A F.denom e) = F.targetdim ∧ F.mindepth < e.length))
    (h : Found F A q old (e ++ [a]).length e') : Found F A q old e.length e' := by
  obtain ⟨t, rfl⟩ := hpre
  refine ⟨fun i hi hj => ?_, h.depth, h.min, h.dim, h.new, fun j hj hlt => ?_⟩
  · by_cases hij : i = e.length
    · subst hij
      have : ((e ++ [a]) ++ t)[e.length] = a := by simp
      rw [this]
      exact ha
    · exact h.range i hi (by simp; omega)
  · by_cases hij : j = e.length
    · subst hij
      have : ((e ++ [a]) ++ t).take e.length = e := by simp
      rw [this]
      exact ⟨h1, h2⟩
    · exact h.before j (by simp; omega) hlt

/-- the cases in which the search stops at a node -/
theorem stop_old {F : Finder} {A : ℤ → Matrix (Fin n) (Fin n) ℤ} {old : List ℤ → ℤ} {e : List ℤ} {k : ℕ}
    (hk : finrank (ZMod q) (E q A F.denom e) = k) (h1 : old e = k) : Out F A q old e (some []) := by
  refine Or.inr ⟨[], rfl, by simp, fun e' => ⟨by simp, fun ⟨hp, hf⟩ => ?_⟩, by simp⟩
  exfalso
  rcases hp.length_le.lt_or_eq with hlt | heq
  · have := (hf.before e.length le_rfl hlt).1
    rw [← List.prefix_iff_eq_take.1 hp, hk] at this
    exact this h1
  · have : e = e' := hp.eq_of_length heq
    subst this
    exact hf.new (by rw [hk]; exact h1)

theorem stop_new {F : Finder} {A : ℤ → Matrix (Fin n) (Fin n) ℤ} (h : Ok q F A) {old : List ℤ → ℤ} {chain : List SSub} {k : ℕ}
    {M : Matrix (Fin n) (Fin k) (ZMod q)} {piv : Fin k → Fin n} {e : List ℤ} (hn : Node q A F.denom chain k M piv e)
    (hk : finrank (ZMod q) (E q A F.denom e) = k) (h1 : old e ≠ k) (h2 : k = F.targetdim ∧ e.length > F.mindepth) (hd : e.length ≤ F.maxdepth) :
    Out F A q old e ((makeBasis F chain k).map (fun (b : List ℤ × List ℤ) => [⟨e, b.1, b.2⟩])) := by
  have he : e ≠ [] := by
    intro h0
    rw [h0] at h2
    simp at h2
  have hf : Found F A q old e.length e :=
    ⟨fun i hi hj => by omega, hd, h2.2, by rw [hk, h2.1], by rw [hk]; exact h1, fun j hj hlt => by omega⟩
  rcases basis_ok h hn he h2.1 with ⟨hb, ht⟩ | ⟨b, hb, hv⟩
  · rw [hb]
    exact Or.inl ⟨rfl, e, List.prefix_rfl, hf, ht⟩
  · rw [hb, Option.map_some]
    refine Or.inr ⟨_, rfl, by simp, fun e' => ?_, ?_⟩
    · simp only [List.map_cons, List.map_nil, List.mem_singleton]
      constructor
      · rintro rfl
        exact ⟨List.prefix_rfl, hf⟩
      · rintro ⟨hp, hf'⟩
        rcases hp.length_le.lt_or_eq with hlt | heq
        · have := (hf'.before e.length le_rfl hlt).2
          rw [← List.prefix_iff_eq_take.1 hp, hk] at this
          exact absurd ⟨h2.1, h2.2⟩ this
        · exact (hp.eq_of_length heq).symm
    · intro r hr
      rw [List.mem_singleton] at hr
      rw [hr]
      exact hv

theorem stop_max {F : Finder} {A : ℤ → Matrix (Fin n) (Fin n) ℤ} {old : List ℤ → ℤ} {e : List ℤ} {k : ℕ}
    (hk : finrank (ZMod q) (E q A F.denom e) = k) (h2 : ¬(k = F.targetdim ∧ e.length > F.mindepth)) (hd : e.length = F.maxdepth) :
    Out F A q old e (some []) := by
  refine Or.inr ⟨[], rfl, by simp, fun e' => ⟨by simp, fun ⟨hp, hf⟩ => ?_⟩, by simp⟩
  exfalso
  have : e = e' := hp.eq_of_length (le_antisymm hp.length_le (by rw [hd]; exact hf.depth))
  subst this
  exact h2 ⟨by rw [← hk]; exact hf.dim, hf.min⟩

theorem targetdim_pos (F : Finder) : 0 < F.targetdim := by
  unfold Finder.targetdim
  split <;> omega

theorem prefix_get {e e' : List ℤ} {a : ℤ} (h : e ++ [a] <+: e') : e'[e.length]? = some a := by
  obtain ⟨t, rfl⟩ := h
  simp

theorem branch {F : Finder} {A : ℤ → Matrix (Fin n) (Fin n) ℤ} {old : List ℤ → ℤ} {e : List ℤ} {k : ℕ}
    (hk : finrank (ZMod q) (E q A F.denom e) = k) (h1 : old e ≠ k) (h2 : ¬(k = F.targetdim ∧ e.length > F.mindepth))
    (hnd : (F.eigrange e.length).Nodup) (f : ℤ → Option (List Rec)) (hO : ∀ a ∈ F.eigrange e.length, Out F A q old (e ++ [a]) (f a)) :
    Out F A q old e (((F.eigrange e.length).mapM f).map List.flatten) := by
  have h1' : old e ≠ finrank (ZMod q) (E q A F.denom e) := by rw [hk]; exact h1
  have h2' : ¬(finrank (ZMod q) (E q A F.denom e) = F.targetdim ∧ F.mindepth < e.length) := by rw [hk]; exact h2
  by_cases hne : ∃ a ∈ F.eigrange e.length, f a = none
  · obtain ⟨a, ha, hfa⟩ := hne
    rw [mapM_none ha hfa]
    rcases hO a ha with ⟨-, e', hp, hf, ht⟩ | ⟨out, ho, -⟩
    · exact Or.inl ⟨rfl, e', (List.prefix_append e [a]).trans hp, found_step hp ha h1' h2' hf, ht⟩
    · rw [hfa] at ho
      exact absurd ho (by simp)
  · push Not at hne
    have hg : ∀ a ∈ F.eigrange e.length, f a = some ((f a).getD []) := by
      intro a ha
      obtain ⟨o, ho⟩ := Option.ne_none_iff_exists'.1 (hne a ha)
      rw [ho]
      rfl
    have hO' : ∀ a ∈ F.eigrange e.length, (((f a).getD []).map Rec.eigs).Nodup ∧
        (∀ e', e' ∈ ((f a).getD []).map Rec.eigs ↔ e ++ [a] <+: e' ∧ Found F A q old (e ++ [a]).length e') ∧ ∀ r ∈ (f a).getD [], VecOk F A q r := by
      intro a ha
      rcases hO a ha with ⟨h0, -⟩ | ⟨out, ho, h3⟩
      · exact absurd h0 (hne a ha)
      · rw [ho]
        exact h3
    rw [mapM_some hg, Option.map_some]
    refine Or.inr ⟨_, rfl, ?_, ?_, ?_⟩
    · rw [List.map_flatten, List.map_map, List.nodup_flatten]
      constructor
      · intro l hl
        obtain ⟨a, ha, rfl⟩ := List.mem_map.1 hl
        exact (hO' a ha).1
      · rw [List.pairwise_map]
        refine List.Pairwise.imp_of_mem ?_ hnd
        intro a b ha hb hab e' h3 h4
        have h5 := prefix_get ((hO' a ha).2.1 e' |>.1 h3).1
        have h6 := prefix_get ((hO' b hb).2.1 e' |>.1 h4).1
        rw [h5] at h6
        exact hab (by simpa using h6)
    · intro e'
      rw [List.map_flatten, List.map_map, List.mem_flatten]
      constructor
      · rintro ⟨l, hl, he'⟩
        obtain ⟨a, ha, rfl⟩ := List.mem_map.1 hl
        obtain ⟨hp, hf⟩ := ((hO' a ha).2.1 e').1 he'
        exact ⟨(List.prefix_append e [a]).trans hp, found_step hp ha h1' h2' hf⟩
      · rintro ⟨hp, hf⟩
        have hlt : e.length < e'.length := by
          rcases hp.length_le.lt_or_eq with hlt | heq
          · exact hlt
          · exfalso
            have : e = e' := hp.eq_of_length heq
            subst this
            exact h2' ⟨hf.dim, hf.min⟩
        have ha := hf.range e.length hlt le_rfl
        refine ⟨_, List.mem_map.2 ⟨e'[e.length], ha, rfl⟩, ((hO' _ ha).2.1 e').2 ⟨?_, ?_⟩⟩
        · have h3 : e'.take (e.length + 1) = e ++ [e'[e.length]] := by
            rw [List.take_add_one, ← List.prefix_iff_eq_take.1 hp, List.getElem?_eq_getElem hlt]
            rfl
          rw [← h3]
          exact List.take_prefix _ _
        · refine ⟨fun i hi hj => hf.range i hi ?_, hf.depth, hf.min, hf.dim, hf.new, fun j hj hl => hf.before j ?_ hl⟩
          · simp at hj
            omega
          · simp at hj
            omega
    · intro r hr
      obtain ⟨l, hl, hr'⟩ := List.mem_flatten.1 hr
      obtain ⟨a, ha, rfl⟩ := List.mem_map.1 hl
      exact (hO' a ha).2.2 r hr'

theorem find_ok {F : Finder} {A : ℤ → Matrix (Fin n) (Fin n) ℤ} (h : Ok q F A) {old : List ℤ → ℤ} (hold : ∀ e, F.dimold e = some (old e))
    (hnd : ∀ i, (F.eigrange i).Nodup) : ∀ (rem : ℕ) (chain : List SSub) (k : ℕ) (M : Matrix (Fin n) (Fin k) (ZMod q)) (piv : Fin k → Fin n)
    (e : List ℤ), Node q A F.denom chain k M piv e → e.length + rem = F.maxdepth → Out F A q old e (find F rem chain k e) := by
  intro rem
  induction rem with
  | zero =>
    intro chain k M piv e hn hd
    have hk : finrank (ZMod q) (E q A F.denom e) = k := by rw [← hn.rg]; exact hn.ch.finrank
    unfold find visit
    rw [hold, Option.bind_some]
    by_cases h1 : old e = k
    · rw [if_pos h1]
      exact stop_old hk h1
    · rw [if_neg h1]
      by_cases h2 : k = F.targetdim ∧ e.length > F.mindepth
      · rw [if_pos h2]
        exact stop_new h hn hk h1 h2 (by omega)
      · rw [if_neg h2]
        exact stop_max hk h2 (by omega)
  | succ rem ih =>
    intro chain k M piv e hn hd
    have hk : finrank (ZMod q) (E q A F.denom e) = k := by rw [← hn.rg]; exact hn.ch.finrank
    unfold find visit
    rw [hold, Option.bind_some]
    by_cases h1 : old e = k
    · rw [if_pos h1]
      exact stop_old hk h1
    · rw [if_neg h1]
      by_cases h2 : k = F.targetdim ∧ e.length > F.mindepth
      · rw [if_pos h2]
        exact stop_new h hn hk h1 h2 (by omega)
      · rw [if_neg h2]
        obtain ⟨m, C, em, hC, hT⟩ := submat_ok h hn
        rw [em, Option.bind_some]
        refine branch hk h1 h2 (hnd _) _ (fun a ha => ?_)
        obtain ⟨s, k', B, p, es, hs, hnc, hr⟩ := eigen_ok h hn.ch hC hT (a * F.denom)
        have hE : Rg (M * mq q B) = E q A F.denom (e ++ [a]) := by
          ext v
          rw [hr, hn.rg, mem_E_append]
        have hn' : Node q A F.denom (s :: chain) k' (M * mq q B) (piv ∘ p) (e ++ [a]) :=
          ⟨hn.ch.cons hs, hE, by simp [hn.len]⟩
        unfold goDown
        rw [es, Option.bind_some, hnc]
        by_cases hk' : k' > 0
        · rw [if_pos hk']
          exact ih _ _ _ _ _ hn' (by simp; omega)
        · rw [if_neg hk']
          refine Or.inr ⟨[], rfl, by simp, fun e' => ⟨by simp, fun ⟨hp, hf⟩ => ?_⟩, by simp⟩
          exfalso
          have h3 := Submodule.finrank_mono (E_mono (q := q) (A := A) (d := F.denom) hp)
          rw [← hE, hn'.ch.finrank, hf.dim] at h3
          have := targetdim_pos F
          omega

/-! ## C114 -/

/-- **C114, the search.** Suppose the operators commute modulo the prime, the ranges of eigenvalues have no repetitions and the dimensions of the old
parts are given by `old`. The search reads nothing outside its arrays. Either an exception is thrown when a basis vector of an eigenspace that
is to be found is lifted, or the list of systems of eigenvalues stored has no repetitions and consists exactly of the systems which are to be
found; and the vectors stored are lifts of basis vectors of the eigenspaces. -/
theorem C114_find {F : Finder} {A : ℤ → Matrix (Fin n) (Fin n) ℤ} (h : Ok q F A) {old : List ℤ → ℤ} (hold : ∀ e, F.dimold e = some (old e))
    (hnd : ∀ i, (F.eigrange i).Nodup) :
    (findAll F = none ∧ ∃ e, Found F A q old 0 e ∧ Throws F A q e) ∨
    ∃ out, findAll F = some out ∧ (out.map Rec.eigs).Nodup ∧ (∀ e, e ∈ out.map Rec.eigs ↔ Found F A q old 0 e) ∧ ∀ r ∈ out, VecOk F A q r := by
  have hn : Node q A F.denom [] n 1 id [] := by
    refine ⟨Chain.nil, ?_, rfl⟩
    ext v
    constructor
    · intro _ i hi
      simp at hi
    · intro _
      exact ⟨v, by rw [mulVecLin_apply, one_mulVec]⟩
  have := find_ok h hold hnd F.maxdepth [] n 1 id [] hn (by simp)
  unfold findAll
  rw [h.dimen]
  rcases this with ⟨h1, e, -, h2, h3⟩ | ⟨out, h1, h2, h3, h4⟩
  · exact Or.inl ⟨h1, e, h2, h3⟩
  · exact Or.inr ⟨out, h1, h2, fun e => by rw [h3]; exact ⟨fun hh => hh.2, fun hh => ⟨List.nil_prefix, hh⟩⟩, h4⟩

/-- **C114, completeness.** Let `e` be a system of eigenvalues in the ranges, at most `maxdepth` of them, whose eigenspace has the dimension
looked for, and suppose that for no beginning of `e` all is old. Then exactly one beginning of `e` is found. -/
theorem C114_complete {F : Finder} {A : ℤ → Matrix (Fin n) (Fin n) ℤ} {old : List ℤ → ℤ} {e : List ℤ}
    (hr : ∀ (i : ℕ) (h : i < e.length), e[i] ∈ F.eigrange i) (hd : e.length ≤ F.maxdepth) (hm : F.mindepth < e.length)
    (hdim : finrank (ZMod q) (E q A F.denom e) = F.targetdim)
    (hnew : ∀ j ≤ e.length, old (e.take j) ≠ finrank (ZMod q) (E q A F.denom (e.take j))) :
    ∃! e', e' <+: e ∧ Found F A q old 0 e' := by
  classical
  have hex : ∃ j, j ≤ e.length ∧ F.mindepth < j ∧ finrank (ZMod q) (E q A F.denom (e.take j)) = F.targetdim :=
    ⟨e.length, le_rfl, hm, by rw [List.take_length]; exact hdim⟩
  obtain ⟨h1, h2, h3⟩ := Nat.find_spec hex
  have hmin := fun j (hj : j < Nat.find hex) => Nat.find_min hex hj
  generalize Nat.find hex = j at h1 h2 h3 hmin
  have hlen : (e.take j).length = j := by rw [List.length_take]; omega
  refine ⟨e.take j, ⟨List.take_prefix _ _, ?_⟩, ?_⟩
  · refine ⟨fun i hi _ => ?_, by omega, by omega, h3, hnew j h1, fun i _ hi => ?_⟩
    · rw [List.getElem_take]
      exact hr i _
    · rw [hlen] at hi
      rw [List.take_take, min_eq_left hi.le]
      exact ⟨hnew i (by omega), fun hh => hmin i hi ⟨by omega, hh.2, hh.1⟩⟩
  · rintro e' ⟨hp, hf⟩
    have he' := List.prefix_iff_eq_take.1 hp
    have hle := hp.length_le
    rcases Nat.lt_trichotomy e'.length j with hlt | heq | hgt
    · exact absurd ⟨hle, hf.min, by rw [← he']; exact hf.dim⟩ (hmin _ hlt)
    · rw [he', heq]
    · have h4 := (hf.before j (Nat.zero_le _) hgt).2
      have h5 : e'.take j = e.take j := by
        conv_lhs => rw [he', List.take_take, min_eq_left hgt.le]
      rw [h5] at h4
      exact absurd ⟨h3, h2⟩ h4

/-- **C114, the vectors.** With the lift of the library, and `int` or `long` scalars, a vector stored generates the eigenspace itself. -/
theorem C114_lift (X : Marith.XGcd) {t : T} (ht : t ≠ .big) {S : Submodule (ZMod q) (Fin n → ZMod q)} {w r : List ℤ} (hw : Gen S w)
    (h : vlift X t q w = some r) : Gen S r := by
  unfold vlift at h
  cases hl : Lift.liftVec X t w q with
  | none =>
    rw [hl] at h
    exact absurd h (by simp)
  | some o =>
    obtain ⟨b, u⟩ := o
    rw [hl, Option.map_some, Option.some.injEq] at h
    cases b with
    | false =>
      simp only [Bool.false_eq_true, if_false] at h
      rw [← h]
      exact hw
    | true =>
      simp only [if_true] at h
      subst h
      obtain ⟨⟨c, hc, hf⟩, -⟩ := Lift.C86_lift_sound X ht hl
      have hlen : u.length = w.length := hf.length_eq
      have hc0 : (c : ZMod q) ≠ 0 := by
        intro h0
        exact hc ((ZMod.intCast_zmod_eq_zero_iff_dvd c q).1 h0)
      have hv : vq q n u = (c : ZMod q) • vq q n w := by
        funext i
        have hiw : (i : ℕ) < w.length := by rw [hw.1]; exact i.2
        have hiu : (i : ℕ) < u.length := by rw [hlen]; exact hiw
        have h1 := List.Forall₂.get hf hiu hiw
        have h2 := Mat.cast_eq_of_cong h1
        simp only [vq, Pi.smul_apply, smul_eq_mul, List.getD_eq_getElem?_getD, List.getElem?_eq_getElem hiu, List.getElem?_eq_getElem hiw,
          Option.getD_some]
        simp only [List.get_eq_getElem] at h2
        rw [h2]
        push_cast
        rfl
      refine ⟨hlen.trans hw.1, ?_⟩
      rw [hv, Submodule.span_singleton_smul_eq (IsUnit.mk0 _ hc0), hw.2]

/-! ## An example: the operators `diag(1,1)` and `diag(2,3)` -/

/-- the matrix `diag(a,b)` -/
def exM (a b : ℤ) : SM := ⟨2, [⟨[some 1, some 1], [some a]⟩, ⟨[some 1, some 2], [some b]⟩]⟩

/-- operator 1 is `diag(2,3)`, the others are 1; the system `[1,3]` is old -/
def exFinder : Finder where
  X := Marith.Props.xgcd0
  t := .long
  p := 10007
  sparse := fun _ => true
  rref := Mat.echmodp Marith.Props.xgcd0 .long (10007 : ℕ)
  fuel := 15
  opmat0 := some (exM 1 1)
  opmatCols := fun i jl => if i = 1 then Smat.selectRows (exM 2 3) jl else Smat.selectRows (exM 1 1) jl
  dimen := 2
  denom := 1
  plusflag := true
  maxdepth := 4
  mindepth := 1
  eigrange := fun i => if i = 0 then [-1, 1] else [-3, -2, -1, 0, 1, 2, 3]
  dimold := fun e => some (if e = [1, 3] then 1 else 0)
  lift := vlift Marith.Props.xgcd0 .long 10007

/-- its matrices -/
def exOp (i : ℤ) : Matrix (Fin 2) (Fin 2) ℤ := if i = 1 then !![2, 0; 0, 3] else !![1, 0; 0, 1]

instance : Fact (Nat.Prime 10007) := ⟨by norm_num⟩

theorem exM_rep (a b : ℤ) (ha : a ≠ 0) (hb : b ≠ 0) : Rep True (exM a b) !![a, 0; 0, b] := by
  refine ⟨rfl, rfl, fun i => ?_⟩
  fin_cases i
  · refine ⟨[(1, a)], rfl, ⟨by simp [Svec.Sorted], by simp⟩, ?_, by simpa using ha⟩
    intro j
    fin_cases j <;> simp [Svec.elem, Svec.find]
  · refine ⟨[(2, b)], rfl, ⟨by simp [Svec.Sorted], by simp⟩, ?_, by simpa using hb⟩
    intro j
    fin_cases j <;> simp [Svec.elem, Svec.find]

theorem exOk : Ok 10007 exFinder exOp := by
  refine ⟨rfl, rfl, fun _ _ => rfl, Elim.rrefOk_echmodp _ .long, by decide, ⟨_, rfl, exM_rep 1 1 (by decide) (by decide)⟩, ?_, ?_, ?_⟩
  · intro i k p
    by_cases hi : i = 1
    · subst hi
      exact Elim.selectRows_fun (exM_rep 2 3 (by decide) (by decide)) p
    · have e1 : exOp i = !![1, 0; 0, 1] := if_neg hi
      have e2 : exFinder.opmatCols i = Smat.selectRows (exM 1 1) := by
        funext jl
        exact if_neg hi
      rw [e1, e2]
      exact Elim.selectRows_fun (exM_rep 1 1 (by decide) (by decide)) p
  · intro i a b h
    exact absurd h (by decide)
  · intro i j
    have h1 : mq 10007 !![1, 0; 0, 1] = 1 := by
      ext a b
      fin_cases a <;> fin_cases b <;> simp [mq]
    unfold exOp
    split_ifs <;> simp [h1]

/-- one form is found, with the basis vector `(1,0)` -/
example : findAll exFinder = some [⟨[1, 2], [1, 0], []⟩] := by decide +kernel

/-- the theorem for this example: the system found is the only one to be found -/
example : ∀ e, Found exFinder exOp 10007 (fun e => if e = [1, 3] then 1 else 0) 0 e ↔ e = [1, 2] := by
  have hval : findAll exFinder = some [⟨[1, 2], [1, 0], []⟩] := by decide +kernel
  rcases C114_find exOk (old := fun e => if e = [1, 3] then 1 else 0) (fun _ => rfl) (by
    intro i
    show (if i = 0 then [-1, 1] else [-3, -2, -1, 0, 1, 2, 3]).Nodup
    split_ifs <;> decide) with ⟨h, -⟩ | ⟨out, h1, -, h2, -⟩
  · rw [hval] at h
    exact absurd h (by simp)
  · rw [hval] at h1
    obtain rfl := Option.some.inj h1
    intro e
    rw [← h2]
    simp

end Eclib.Split
