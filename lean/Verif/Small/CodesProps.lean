import Verif.Small.CodesModel
import Mathlib.Tactic.Linarith
import Mathlib.Tactic.Ring
import Mathlib.Tactic.FinCases
import Mathlib.Data.List.Induction
import Mathlib.Data.List.Nodup
import Mathlib.Data.Fintype.EquivFin

/-!
# Property theorems: conversions (C50), class codes (C51), book numbers (C52)
-/

namespace Eclib.Codes.Props

open Eclib.Codes

/-! ## C50 -/

theorem I2_spec (MAX MIN : Int) (hM : 0 < MAX) (hm : MIN = -MAX - 1) (x : Int) :
    I2 MAX MIN 2 x = some (if MIN ≤ x ∧ x ≤ MAX then (x, false) else (0, true)) := by
  unfold I2
  by_cases h0 : x = 0
  · rw [if_pos h0, if_pos (by omega), h0]
  rw [if_neg h0]
  by_cases h1 : x ≤ MAX ∧ x ≥ MIN
  · rw [if_neg (not_not.mpr h1), if_pos (⟨h1.2, h1.1⟩ : MIN ≤ x ∧ x ≤ MAX)]
    have pos : ∀ y : Int, 0 < y → y ≤ MAX → (if y = MAX then MAX else y.fmod MAX) = y := by
      intro y hy hyM
      split_ifs with h
      · exact h.symm
      · rw [Int.fmod_eq_emod_of_nonneg _ hM.le]
        exact Int.emod_eq_of_lt hy.le (by omega)
    by_cases h2 : x > 0
    · rw [if_pos h2, pos x h2 h1.1]
    · rw [if_neg h2]
      by_cases h3 : x = MIN
      · rw [if_pos h3, h3]
      · rw [if_neg h3]
        unfold I2
        rw [if_neg (by omega), if_neg (by omega), if_pos (by omega), pos (-x) (by omega) (by omega),
          Option.bind_some]
        simp only [neg_neg]
        rw [if_pos (by omega)]
  · rw [if_pos h1, if_neg (by omega)]

/-- C50: `I2int(x)` is `x`, with no message, when `x` fits in an `int`, and `0` with a message
otherwise. -/
theorem C50_I2int (x : Int) : I2int x =
    some (if -2 ^ 31 ≤ x ∧ x ≤ 2 ^ 31 - 1 then (x, false) else (0, true)) :=
  I2_spec 2147483647 (-2147483648) (by decide) (by decide) x

/-- C50: the same for `I2long`. -/
theorem C50_I2long (x : Int) : I2long x =
    some (if -2 ^ 63 ≤ x ∧ x ≤ 2 ^ 63 - 1 then (x, false) else (0, true)) :=
  I2_spec 9223372036854775807 (-9223372036854775808) (by decide) (by decide) x

example : I2int (-2147483648) = some (-2147483648, false) := by decide
example : I2long (2 ^ 63) = some (0, true) := by decide

/-! ## C51 -/

/-- Specification: the value of a word over `a..z` in base 26, most significant letter first. -/
def Spec.value (w : List Char) : Int := w.foldl (fun n c => 26 * n + ((c.toNat : Int) - 97)) 0

/-- Specification: a lower-case letter. -/
def Spec.Lower (c : Char) : Prop := 97 ≤ c.toNat ∧ c.toNat ≤ 122

/-- Specification: a proper code: non-empty, lower case, no superfluous leading `a`. -/
def Spec.Proper (w : List Char) : Prop :=
  w ≠ [] ∧ (∀ c ∈ w, Spec.Lower c) ∧ (w.head? = some 'a' → w = ['a'])

theorem alphabet_get : ∀ k : Fin 26, ∃ c, alphabet[k.val]? = some c ∧ c.toNat = 97 + k.val := by
  decide +kernel

theorem alphabet_get' (k : Nat) (hk : k < 26) : ∃ c, alphabet[k]? = some c ∧ c.toNat = 97 + k :=
  alphabet_get ⟨k, hk⟩

theorem value_append (w : List Char) (c : Char) :
    Spec.value (w ++ [c]) = 26 * Spec.value w + ((c.toNat : Int) - 97) := by
  unfold Spec.value
  rw [List.foldl_append]
  rfl

theorem lower_toNat_inj {c d : Char} (h : c.toNat = d.toNat) : c = d := by
  apply Char.ext
  apply UInt32.toNat_inj.mp
  exact h

/-- The loop of `new_codeletter`. -/
theorem codeLoop_spec (n : Nat) (hn : n ≠ 0) : ∃ l, codeLoop n = some l ∧ l ≠ [] ∧
    (∀ c ∈ l, Spec.Lower c) ∧ Spec.value l.reverse = n ∧ l.reverse.head? ≠ some 'a' := by
  induction n using Nat.strong_induction_on with
  | _ n ih =>
    have h1 : (n : Int).tmod 26 = ((n % 26 : Nat) : Int) := by
      rw [Int.tmod_eq_emod_of_nonneg (by omega)]; norm_cast
    have h2 : (n : Int).tdiv 26 = ((n / 26 : Nat) : Int) := by
      rw [Int.tdiv_eq_ediv_of_nonneg (by omega)]; norm_cast
    obtain ⟨c, hc, hcv⟩ := alphabet_get' (n % 26) (by omega)
    rw [codeLoop, dif_neg (by omega), h1, h2, if_neg (by omega), Int.toNat_natCast, hc,
      Option.bind_some]
    have hcl : Spec.Lower c := by unfold Spec.Lower; omega
    by_cases hz : n / 26 = 0
    · rw [hz, codeLoop, dif_pos (by rfl)]
      refine ⟨[c], rfl, by simp, by simpa using hcl, ?_, ?_⟩
      · simp only [Spec.value, List.reverse_cons, List.reverse_nil, List.nil_append, List.foldl_cons,
          List.foldl_nil]
        omega
      · simp only [List.reverse_cons, List.reverse_nil, List.nil_append, List.head?_cons, ne_eq,
          Option.some.injEq]
        rintro rfl
        have : ('a' : Char).toNat = 97 := by decide
        omega
    · obtain ⟨l, e1, e2, e3, e4, e5⟩ := ih (n / 26) (by omega) hz
      rw [e1]
      refine ⟨c :: l, rfl, by simp, ?_, ?_, ?_⟩
      · intro d hd
        rcases List.mem_cons.mp hd with rfl | hd
        · exact hcl
        · exact e3 d hd
      · rw [List.reverse_cons, value_append, e4]
        omega
      · rw [List.reverse_cons]
        have : l.reverse ≠ [] := by simpa using e2
        rw [List.head?_append_of_ne_nil _ this]
        exact e5

theorem value_nonneg_mono (w : List Char) (hw : ∀ c ∈ w, Spec.Lower c) : 0 ≤ Spec.value w := by
  induction w using List.reverseRecOn with
  | nil => simp [Spec.value]
  | append_singleton w c ih =>
    rw [value_append]
    have h1 := ih fun d hd => hw d (List.mem_append_left _ hd)
    have h2 : Spec.Lower c := hw c (by simp)
    unfold Spec.Lower at h2
    omega

/-- `codeletter_to_int` computes the base-26 value of every lower-case word whose value fits in an
`int`. -/
theorem C51_decode (w : List Char) (hw : ∀ c ∈ w, Spec.Lower c) (hv : Spec.value w ≤ 2147483647) :
    codeletterToInt w = some (Spec.value w) := by
  induction w using List.reverseRecOn with
  | nil => rfl
  | append_singleton w c ih =>
    have h2 : Spec.Lower c := hw c (by simp)
    unfold Spec.Lower at h2
    have h1 := value_nonneg_mono w fun d hd => hw d (List.mem_append_left _ hd)
    rw [value_append] at hv
    have h3 := ih (fun d hd => hw d (List.mem_append_left _ hd)) (by omega)
    unfold codeletterToInt at h3 ⊢
    rw [List.foldl_append, h3, List.foldl_cons, List.foldl_nil, Option.bind_some, value_append,
      if_pos]
    · congr 1; ring
    · unfold I32; constructor <;> omega

/-- Two proper codes with the same value are equal. -/
theorem value_inj : ∀ (w v : List Char), (∀ c ∈ w, Spec.Lower c) → (∀ c ∈ v, Spec.Lower c) →
    w.head? ≠ some 'a' → v.head? ≠ some 'a' → Spec.value w = Spec.value v → w = v := by
  have pos : ∀ w : List Char, w ≠ [] → (∀ c ∈ w, Spec.Lower c) → w.head? ≠ some 'a' →
      0 < Spec.value w := by
    intro w
    induction w using List.reverseRecOn with
    | nil => intro h; exact absurd rfl h
    | append_singleton w c ih =>
      intro _ hl hh
      have h2 : Spec.Lower c := hl c (by simp)
      have ha : ('a' : Char).toNat = 97 := by decide
      rw [value_append]
      by_cases hw : w = []
      · subst hw
        have : c ≠ 'a' := by simpa using hh
        have hne : c.toNat ≠ 97 := fun h => this (lower_toNat_inj (by rw [h, ha]))
        simp only [Spec.value, List.foldl_nil]
        unfold Spec.Lower at h2
        omega
      · rw [List.head?_append_of_ne_nil _ hw] at hh
        have := ih hw (fun d hd => hl d (List.mem_append_left _ hd)) hh
        unfold Spec.Lower at h2
        omega
  intro w
  induction w using List.reverseRecOn with
  | nil =>
    intro v _ hv _ hh h
    by_contra hne
    have := pos v (fun h => hne h.symm) hv hh
    have e : Spec.value [] = 0 := rfl
    omega
  | append_singleton w c ih =>
    intro v hw hv hhw hhv h
    rcases List.eq_nil_or_concat v with rfl | ⟨v', d, rfl⟩
    · have := pos (w ++ [c]) (by simp) hw hhw
      have e : Spec.value [] = 0 := rfl
      omega
    · rw [List.concat_eq_append] at *
      rw [value_append, value_append] at h
      have hc : Spec.Lower c := hw c (by simp)
      have hd : Spec.Lower d := hv d (by simp)
      unfold Spec.Lower at hc hd
      have e1 : c = d := lower_toNat_inj (by omega)
      have e2 : Spec.value w = Spec.value v' := by omega
      have hhw' : w.head? ≠ some 'a' := by
        rcases w with _ | ⟨x, w⟩
        · simp
        · simpa using hhw
      have hhv' : v'.head? ≠ some 'a' := by
        rcases v' with _ | ⟨x, w⟩
        · simp
        · simpa using hhv
      rw [e1, ih v' (fun d hd => hw d (List.mem_append_left _ hd))
        (fun d hd => hv d (List.mem_append_left _ hd)) hhw' hhv' e2]

/-- C51: for every `int` `i ≥ 0`, `new_codeletter(i)` is a proper code of value `i`, which
`codeletter_to_int` maps back to `i`. -/
theorem C51_roundtrip (i : Int) (h0 : 0 ≤ i) (hi : i ≤ 2147483647) :
    ∃ w, newCodeletter i = some w ∧ Spec.Proper w ∧ Spec.value w = i ∧ codeletterToInt w = some i := by
  unfold newCodeletter
  split_ifs with h
  · subst h
    refine ⟨['a'], rfl, ⟨by simp, ?_, fun _ => rfl⟩, by decide, by decide⟩
    intro c hc
    rw [List.mem_singleton.mp hc]
    unfold Spec.Lower; decide
  · obtain ⟨n, rfl⟩ := Int.eq_ofNat_of_zero_le h0
    obtain ⟨l, e1, e2, e3, e4, e5⟩ := codeLoop_spec n (by omega)
    rw [e1]
    have hl : ∀ c ∈ l.reverse, Spec.Lower c := fun c hc => e3 c (List.mem_reverse.mp hc)
    refine ⟨l.reverse, rfl, ⟨by simpa using e2, hl, fun h => absurd h e5⟩, e4, ?_⟩
    rw [C51_decode _ hl (by rw [e4]; exact hi), e4]

example : newCodeletter 515 = some ['t', 'v'] := by decide +kernel

/-- C51: distinct indices have distinct codes. -/
theorem C51_injective (i j : Int) (hi0 : 0 ≤ i) (hi : i ≤ 2147483647) (hj0 : 0 ≤ j)
    (hj : j ≤ 2147483647) (h : newCodeletter i = newCodeletter j) : i = j := by
  obtain ⟨w, e1, -, e2, -⟩ := C51_roundtrip i hi0 hi
  obtain ⟨v, f1, -, f2, -⟩ := C51_roundtrip j hj0 hj
  rw [e1, f1, Option.some.injEq] at h
  rw [← e2, ← f2, h]

/-- C51: every proper code whose value fits in an `int` is the code of its value, so the codes are
exactly the proper words. -/
theorem C51_surjective (w : List Char) (hw : Spec.Proper w) (hv : Spec.value w ≤ 2147483647) :
    (codeletterToInt w).bind newCodeletter = some w := by
  rw [C51_decode w hw.2.1 hv, Option.bind_some]
  obtain ⟨v, e1, e2, e3, -⟩ := C51_roundtrip (Spec.value w) (value_nonneg_mono w hw.2.1) hv
  rw [e1]
  congr 1
  have hva : Spec.value ['a'] = 0 := by decide
  by_cases h1 : w.head? = some 'a' <;> by_cases h2 : v.head? = some 'a'
  · rw [hw.2.2 h1, e2.2.2 h2]
  · rw [hw.2.2 h1, hva] at e3
    have := value_inj v [] e2.2.1 (by simp) h2 (by simp) (by rw [e3]; rfl)
    exact absurd this e2.1
  · rw [e2.2.2 h2, hva] at e3
    have := value_inj w [] hw.2.1 (by simp) h1 (by simp) (by rw [← e3]; rfl)
    exact absurd this hw.1
  · exact value_inj v w e2.2.1 hw.2.1 h2 h1 e3

example : Spec.Proper ['b', 'a'] ∧ Spec.value ['b', 'a'] = 26 := by
  refine ⟨⟨by decide, ?_, by decide⟩, by decide⟩
  intro c hc
  unfold Spec.Lower
  fin_cases hc <;> decide

/-- A negative index reads outside `alphabet`: the precondition `0 ≤ i` is needed. -/
theorem C51_negative : newCodeletter (-1) = none := by decide +kernel

/-! ## C52 -/

/-- every table is a permutation of its index range -/
theorem tables_ok : ∀ t ∈ bookTable, t.2.Nodup ∧ ∀ x ∈ t.2, 0 ≤ x ∧ x < t.2.length := by
  decide +kernel

theorem lookup_mem {α β : Type} [BEq α] [LawfulBEq α] (l : List (α × β)) (a : α) (b : β)
    (h : l.lookup a = some b) : (a, b) ∈ l := by
  induction l with
  | nil => simp at h
  | cons x l ih =>
    obtain ⟨k, v⟩ := x
    rw [List.lookup_cons] at h
    by_cases hk : a == k
    · rw [hk] at h
      simp only [Option.some.injEq] at h
      rw [eq_of_beq hk, h]; simp
    · rw [Bool.eq_false_iff.mpr hk] at h
      exact List.mem_cons_of_mem _ (ih h)

/-- C52: at every level, two forms never get the same book number. -/
theorem C52_injective (level f g n : Int) (hf : booknumber0 level f = some n)
    (hg : booknumber0 level g = some n) : f = g := by
  unfold booknumber0 at hf hg
  by_cases h1 : level < 56
  · rw [if_pos h1, Option.some.injEq] at hf hg; omega
  rw [if_neg h1] at hf hg
  by_cases h2 : level > 450
  · rw [if_pos h2, Option.some.injEq] at hf hg; omega
  rw [if_neg h2] at hf hg
  · cases ht : bookTable.lookup level with
    | none =>
      rw [ht] at hf hg
      simp only [Option.some.injEq] at hf hg; omega
    | some t =>
      rw [ht] at hf hg
      simp only at hf hg
      split_ifs at hf hg with h3 h4
      obtain ⟨hnd, -⟩ := tables_ok _ (lookup_mem _ _ _ ht)
      simp only at hnd
      obtain ⟨a1, a2⟩ := List.getElem?_eq_some_iff.mp hf
      obtain ⟨b1, b2⟩ := List.getElem?_eq_some_iff.mp hg
      have := (List.Nodup.getElem_inj_iff hnd (hi := a1) (hj := b1)).mp (by rw [a2, b2])
      omega

/-- C52: at every level whose forms are listed by a table of length `k`, `booknumber0` maps
`0,…,k-1` onto itself. -/
theorem C52_permutes (level : Int) (t : List Int) (ht : bookTable.lookup level = some t) :
    (∀ f : Int, 0 ≤ f → f < t.length → ∃ n, booknumber0 level f = some n ∧ 0 ≤ n ∧ n < t.length) ∧
    (∀ n : Int, 0 ≤ n → n < t.length → ∃ f : Int, 0 ≤ f ∧ f < t.length ∧ booknumber0 level f = some n) := by
  have hlev : ∀ x ∈ bookTable, 56 ≤ x.1 ∧ x.1 ≤ 450 := by decide +kernel
  have hm := lookup_mem _ _ _ ht
  have hl := hlev _ hm
  obtain ⟨hnd, hr⟩ := tables_ok _ hm
  simp only at hl hnd hr
  have eq : ∀ f, 0 ≤ f → booknumber0 level f = t[f.toNat]? := by
    intro f hf
    unfold booknumber0
    rw [if_neg (by omega), if_neg (by omega), ht]
    simp only
    rw [if_neg (by omega)]
  have A : ∀ f : Int, 0 ≤ f → f < t.length → ∃ n, booknumber0 level f = some n ∧ 0 ≤ n ∧ n < t.length := by
    intro f h0 h1
    have h2 : f.toNat < t.length := by omega
    refine ⟨t[f.toNat], ?_, hr _ (List.getElem_mem h2)⟩
    rw [eq f h0, List.getElem?_eq_getElem h2]
  refine ⟨A, ?_⟩
  -- an injective self-map of a finite set is onto
  let F : Fin t.length → Fin t.length := fun i =>
    ⟨(t[i.val]).toNat, by have := hr _ (List.getElem_mem i.2); omega⟩
  have hF : Function.Injective F := by
    intro i j h
    simp only [F, Fin.mk.injEq] at h
    have h1 := hr _ (List.getElem_mem i.2)
    have h2 := hr _ (List.getElem_mem j.2)
    exact Fin.ext ((List.Nodup.getElem_inj_iff hnd).mp (by omega))
  have hS := Finite.surjective_of_injective hF
  intro n h0 h1
  obtain ⟨i, hi⟩ := hS ⟨n.toNat, by omega⟩
  refine ⟨i.val, by omega, by omega, ?_⟩
  rw [eq _ (by omega), Int.toNat_natCast, List.getElem?_eq_getElem i.2]
  simp only [F, Fin.mk.injEq] at hi
  have := hr _ (List.getElem_mem i.2)
  congr 1
  omega

example : bookTable.lookup 432 = some [4, 6, 1, 0, 5, 7, 2, 3] ∧ booknumber 432 3 = some 2 := by
  decide +kernel

/-- C52: the same for the numbering from 1. -/
theorem C52_booknumber (level f g n : Int) (hf : booknumber level f = some n)
    (hg : booknumber level g = some n) : f = g := by
  unfold booknumber at hf hg
  rw [Option.map_eq_some_iff] at hf hg
  obtain ⟨a, ha, ea⟩ := hf
  obtain ⟨b, hb, eb⟩ := hg
  have : a = b := by omega
  rw [this] at ha
  have := C52_injective level _ _ _ ha hb
  omega

end Eclib.Codes.Props
