import Verif.Svec.Model
import Verif.Arith.Props
import Verif.Marith.Props
import Verif.Small.XmodProps

/-!
# Lemmas about the sparse vector model
-/

namespace Eclib.Svec

open Eclib

/-- keys strictly increasing -/
def Sorted (m : Map) : Prop := m.Pairwise fun a b => a.1 < b.1

theorem find_cons (j x : Int) (m : Map) (i : Int) :
    find ((j, x) :: m) i = if i = j then some x else find m i := rfl

theorem find_append (a b : Map) (i : Int) : find (a ++ b) i = (find a i).or (find b i) := by
  induction a with
  | nil => simp [find]
  | cons e a ih =>
    obtain ⟨j, x⟩ := e
    simp only [List.cons_append, find]
    split_ifs with h
    · rfl
    · exact ih

theorem find_none_of (m : Map) (i : Int) (h : ∀ e ∈ m, e.1 ≠ i) : find m i = none := by
  induction m with
  | nil => rfl
  | cons e m ih =>
    obtain ⟨j, x⟩ := e
    simp only [find]
    rw [if_neg (fun hij => h (j, x) (by simp) hij.symm)]
    exact ih fun e he => h e (by simp [he])

theorem mem_of_find (m : Map) (i x : Int) (h : find m i = some x) : (i, x) ∈ m := by
  induction m with
  | nil => simp [find] at h
  | cons e m ih =>
    obtain ⟨j, y⟩ := e
    simp only [find] at h
    split_ifs at h with hij
    · simp only [Option.some.injEq] at h
      rw [hij, h]; simp
    · exact List.mem_cons_of_mem _ (ih h)

theorem find_of_mem (m : Map) (hm : Sorted m) (i x : Int) (h : (i, x) ∈ m) : find m i = some x := by
  induction m with
  | nil => simp at h
  | cons e m ih =>
    obtain ⟨j, y⟩ := e
    rcases List.mem_cons.mp h with h | h
    · simp only [Prod.mk.injEq] at h
      simp only [find]
      rw [if_pos h.1, h.2]
    · have hj := (List.pairwise_cons.mp hm).1 _ h
      simp only at hj
      simp only [find]
      rw [if_neg (by omega)]
      exact ih (List.pairwise_cons.mp hm).2 h

theorem find_put (m : Map) (i x j : Int) : find (put m i x) j = if j = i then some x else find m j := by
  induction m with
  | nil => simp [find, put]
  | cons e m ih =>
    obtain ⟨k, y⟩ := e
    simp only [put]
    by_cases h1 : i < k
    · rw [if_pos h1]; simp only [find]
    · rw [if_neg h1]
      by_cases h2 : i = k
      · rw [if_pos h2]; simp only [find]
        by_cases h3 : j = i
        · rw [if_pos h3, if_pos h3]
        · rw [if_neg h3, if_neg h3, if_neg (by omega)]
      · rw [if_neg h2]; simp only [find]
        rw [ih]
        split_ifs with h3 h4
        · omega
        all_goals rfl

theorem mem_put (m : Map) (i x : Int) (e : Int × Int) (h : e ∈ put m i x) : e = (i, x) ∨ e ∈ m := by
  induction m with
  | nil => left; simpa [put] using h
  | cons f m ih =>
    obtain ⟨k, y⟩ := f
    simp only [put] at h
    split_ifs at h with h1 h2
    · rcases List.mem_cons.mp h with h | h
      · left; exact h
      · right; exact h
    · rcases List.mem_cons.mp h with h | h
      · left; exact h
      · right; exact List.mem_cons_of_mem _ h
    · rcases List.mem_cons.mp h with h | h
      · right; rw [h]; simp
      · rcases ih h with h | h
        · left; exact h
        · right; exact List.mem_cons_of_mem _ h

theorem sorted_put (m : Map) (hm : Sorted m) (i x : Int) : Sorted (put m i x) := by
  induction m with
  | nil => simp [put, Sorted]
  | cons e m ih =>
    obtain ⟨k, y⟩ := e
    have h := List.pairwise_cons.mp hm
    simp only [put]
    split_ifs with h1 h2
    · refine List.pairwise_cons.mpr ⟨?_, hm⟩
      intro f hf
      rcases List.mem_cons.mp hf with rfl | hf
      · exact h1
      · exact lt_trans h1 (h.1 f hf)
    · refine List.pairwise_cons.mpr ⟨?_, h.2⟩
      intro f hf
      have := h.1 f hf
      simp only at this ⊢
      omega
    · refine List.pairwise_cons.mpr ⟨?_, ih h.2⟩
      intro f hf
      rcases mem_put m i x f hf with rfl | hf
      · simp only; omega
      · exact h.1 f hf

theorem del_sublist (m : Map) (i : Int) : (del m i).Sublist m := by
  induction m with
  | nil => simp [del]
  | cons e m ih =>
    obtain ⟨k, y⟩ := e
    simp only [del]
    split_ifs
    · exact List.sublist_cons_self _ _
    · exact ih.cons_cons _

theorem sorted_del (m : Map) (hm : Sorted m) (i : Int) : Sorted (del m i) :=
  List.Pairwise.sublist (del_sublist m i) hm

theorem find_del (m : Map) (hm : Sorted m) (i j : Int) :
    find (del m i) j = if j = i then none else find m j := by
  induction m with
  | nil => simp [find, del]
  | cons e m ih =>
    obtain ⟨k, y⟩ := e
    have h := List.pairwise_cons.mp hm
    simp only [del]
    by_cases h1 : i = k
    · rw [if_pos h1]
      by_cases h2 : j = i
      · rw [if_pos h2]
        refine find_none_of m j fun e he => ?_
        have := h.1 e he
        simp only at this
        omega
      · rw [if_neg h2]
        simp only [find]
        rw [if_neg (by omega)]
    · rw [if_neg h1]
      simp only [find]
      rw [ih h.2]
      split_ifs <;> first | rfl | omega

theorem put_last (m : Map) (k x : Int) (h : ∀ e ∈ m, e.1 < k) : put m k x = m ++ [(k, x)] := by
  induction m with
  | nil => rfl
  | cons e m ih =>
    obtain ⟨j, y⟩ := e
    have := h (j, y) (by simp)
    simp only at this
    simp only [put, List.cons_append]
    rw [if_neg (by omega), if_neg (by omega), ih fun e he => h e (by simp [he])]

theorem del_last (m : Map) (k x : Int) (h : ∀ e ∈ m, e.1 < k) : del (m ++ [(k, x)]) k = m := by
  induction m with
  | nil => simp [del]
  | cons e m ih =>
    obtain ⟨j, y⟩ := e
    have := h (j, y) (by simp)
    simp only at this
    simp only [del, List.cons_append]
    rw [if_neg (by omega), ih fun e he => h e (by simp [he])]

/-- two sorted maps with the same values are equal -/
theorem sorted_ext (a b : Map) (ha : Sorted a) (hb : Sorted b) (h : ∀ i, find a i = find b i) :
    a = b := by
  induction a generalizing b with
  | nil =>
    cases b with
    | nil => rfl
    | cons e b =>
      have := h e.1
      simp [find] at this
  | cons e a ih =>
    obtain ⟨j, x⟩ := e
    cases b with
    | nil =>
      have := h j
      simp [find] at this
    | cons f b =>
      obtain ⟨k, y⟩ := f
      have pa := List.pairwise_cons.mp ha
      have pb := List.pairwise_cons.mp hb
      have low : ∀ (l : Map) (q : Int), (∀ e ∈ l, q < e.1) → ∀ i, i ≤ q → find l i = none :=
        fun l q hl i hi => find_none_of l i fun e he => by have := hl e he; omega
      have hjk : j = k := by
        rcases lt_trichotomy j k with hlt | heq | hgt
        · have := h j
          rw [find_cons, find_cons, if_pos rfl, if_neg (by omega), low b k (by simpa using pb.1) j (by omega)] at this
          simp at this
        · exact heq
        · have := h k
          rw [find_cons, find_cons, if_neg (by omega), if_pos rfl, low a j (by simpa using pa.1) k (by omega)] at this
          simp at this
      subst hjk
      have hxy := h j
      rw [find_cons, find_cons, if_pos rfl, if_pos rfl, Option.some.injEq] at hxy
      subst hxy
      rw [ih b pa.2 pb.2]
      intro i
      have := h i
      rw [find_cons, find_cons] at this
      by_cases hi : i = j
      · rw [low a j (by simpa using pa.1) i (by omega), low b j (by simpa using pb.1) i (by omega)]
      · rwa [if_neg hi, if_neg hi] at this

/-- entry of the merged map -/
def comb2 (ins : Int → Int) (comb : Int → Int → Int) : Option Int → Option Int → Option Int
  | x, none => x
  | none, some y => some (ins y)
  | some x, some y => if comb x y = 0 then none else some (comb x y)

theorem sorted_append {a b : Map} (ha : Sorted a) (hb : Sorted b)
    (h : ∀ e ∈ a, ∀ f ∈ b, e.1 < f.1) : Sorted (a ++ b) :=
  List.pairwise_append.mpr ⟨ha, hb, h⟩

theorem merge_spec (ins : Int → Int) (comb : Int → Int → Int) (bef aft wi : Map) (ons offs : List Int)
    (hs : Sorted (bef ++ aft)) (hw : Sorted wi) (hb : ∀ e ∈ bef, ∀ f ∈ wi, e.1 < f.1) :
    let r := merge ins comb bef aft wi ons offs
    Sorted r.1 ∧
    (∀ i, find r.1 i = comb2 ins comb (find (bef ++ aft) i) (find wi i)) ∧
    (∀ i, i ∈ r.2.1 ↔ i ∈ ons ∨ (find (bef ++ aft) i = none ∧ find wi i ≠ none)) ∧
    (∀ i, i ∈ r.2.2 ↔ i ∈ offs ∨ ∃ x y, find (bef ++ aft) i = some x ∧ find wi i = some y ∧
      comb x y = 0) := by
  fun_induction merge ins comb bef aft wi ons offs with
  | case1 bef ons offs aft =>
    intro r
    refine ⟨hs, ?_, ?_, ?_⟩
    · intro i; simp [r, find, comb2]
    · intro i; simp [r, find]
    · intro i; simp [r, find]
  | case2 bef ons offs k y wi ih =>
    intro r
    have hk : ∀ e ∈ bef, e.1 < k := fun e he => hb e he (k, y) (by simp)
    have pw := List.pairwise_cons.mp hw
    rw [List.append_nil] at hs
    have hkb : find bef k = none := find_none_of _ _ fun e he => by have := hk e he; omega
    have hkw : find wi k = none := find_none_of _ _ fun e he => by
      have := pw.1 e he; simp only at this; omega
    obtain ⟨h1, h2, h3, h4⟩ := ih (by rw [List.append_nil]; exact sorted_put _ hs _ _) pw.2 (by
      intro e he f hf
      rcases mem_put _ _ _ _ he with rfl | he
      · exact pw.1 f hf
      · exact hb e he f (by simp [hf]))
    refine ⟨h1, ?_, ?_, ?_⟩
    · intro i
      rw [h2, List.append_nil, List.append_nil, find_put]
      simp only [find]
      by_cases hi : i = k
      · subst hi; simp [hkw, hkb, comb2]
      · rw [if_neg hi, if_neg hi]
    · intro i
      rw [h3, List.append_nil, List.append_nil, find_put]
      simp only [find]
      by_cases hi : i = k
      · subst hi; simp [hkb]
      · simp [hi]
    · intro i
      rw [h4, List.append_nil, List.append_nil, find_put]
      simp only [find]
      by_cases hi : i = k
      · subst hi; simp [hkb, hkw]
      · simp [hi]
  | case3 bef ons offs k y wi j x aft hjk ih =>
    intro r
    have e : bef ++ [(j, x)] ++ aft = bef ++ (j, x) :: aft := by simp
    have := ih (by rw [e]; exact hs) hw (by
      intro e he f hf
      rcases List.mem_append.mp he with he | he
      · exact hb e he f hf
      · rw [List.mem_singleton.mp he]
        rcases List.mem_cons.mp hf with rfl | hf
        · exact hjk
        · exact lt_trans hjk ((List.pairwise_cons.mp hw).1 f hf))
    rw [e] at this
    exact this
  | case4 bef ons offs k y wi j x aft hjk hkj ih =>
    intro r
    have hk : ∀ e ∈ bef, e.1 < k := fun e he => hb e he (k, y) (by simp)
    have pw := List.pairwise_cons.mp hw
    have ps := List.pairwise_append.mp hs
    have pa := List.pairwise_cons.mp ps.2.1
    have hkb : find (bef ++ (j, x) :: aft) k = none := find_none_of _ _ fun e he => by
      rcases List.mem_append.mp he with he | he
      · have := hk e he; omega
      · rcases List.mem_cons.mp he with rfl | he
        · simp only; omega
        · have := pa.1 e he; simp only at this; omega
    have hkw : find wi k = none := find_none_of _ _ fun e he => by
      have := pw.1 e he; simp only at this; omega
    have hput := put_last bef k (ins y) hk
    have hfp : ∀ i, find (put bef k (ins y) ++ (j, x) :: aft) i =
        if i = k then some (ins y) else find (bef ++ (j, x) :: aft) i := by
      intro i
      rw [find_append, find_put, find_append]
      split_ifs with hi
      · rfl
      · rfl
    have hsorted : Sorted (put bef k (ins y) ++ (j, x) :: aft) := by
      refine sorted_append (sorted_put _ ps.1 _ _) ps.2.1 ?_
      intro e he f hf
      rcases mem_put _ _ _ _ he with rfl | he
      · rcases List.mem_cons.mp hf with rfl | hf
        · exact hkj
        · exact lt_trans hkj (pa.1 f hf)
      · exact ps.2.2 e he f hf
    obtain ⟨h1, h2, h3, h4⟩ := ih hsorted pw.2 (by
      intro e he f hf
      rcases mem_put _ _ _ _ he with rfl | he
      · exact pw.1 f hf
      · exact hb e he f (by simp [hf]))
    refine ⟨h1, ?_, ?_, ?_⟩
    · intro i
      rw [h2, hfp]
      rw [show find ((k, y) :: wi) i = if i = k then some y else find wi i from rfl]
      by_cases hi : i = k
      · subst hi; simp [hkw, hkb, comb2]
      · rw [if_neg hi, if_neg hi]
    · intro i
      rw [h3, hfp]
      rw [show find ((k, y) :: wi) i = if i = k then some y else find wi i from rfl]
      by_cases hi : i = k
      · subst hi; simp [hkb]
      · simp [hi]
    · intro i
      rw [h4, hfp]
      rw [show find ((k, y) :: wi) i = if i = k then some y else find wi i from rfl]
      by_cases hi : i = k
      · subst hi; simp [hkb, hkw]
      · simp [hi]
  | case5 bef ons offs k y wi j x aft hjk hkj sum hsum ih =>
    intro r
    have hkj' : k = j := by omega
    subst hkj'
    have pw := List.pairwise_cons.mp hw
    have ps := List.pairwise_append.mp hs
    have pa := List.pairwise_cons.mp ps.2.1
    have hk : ∀ e ∈ bef, e.1 < k := fun e he => hb e he (k, y) (by simp)
    have hkw : find wi k = none := find_none_of _ _ fun e he => by
      have := pw.1 e he; simp only at this; omega
    have hkb : find bef k = none := find_none_of _ _ fun e he => by have := hk e he; omega
    have e : ∀ z, bef ++ [(k, z)] ++ aft = bef ++ (k, z) :: aft := by intro z; simp
    have hf : ∀ z i, find (bef ++ (k, z) :: aft) i = if i = k then some z else
        find (bef ++ aft) i := by
      intro z i
      rw [find_append, find_append]
      simp only [find]
      by_cases hi : i = k
      · subst hi; simp [hkb]
      · simp [hi]
    have hsorted : Sorted (bef ++ [(k, sum)] ++ aft) := by
      rw [e]
      refine sorted_append ps.1 (List.pairwise_cons.mpr ⟨pa.1, pa.2⟩) ?_
      intro e he f hf
      rcases List.mem_cons.mp hf with rfl | hf
      · exact hk e he
      · exact ps.2.2 e he f (by simp [hf])
    obtain ⟨h1, h2, h3, h4⟩ := ih hsorted pw.2 (by
      intro e he f hf
      rcases List.mem_append.mp he with he | he
      · exact hb e he f (by simp [hf])
      · rw [List.mem_singleton.mp he]; exact pw.1 f hf)
    rw [e] at h2 h3 h4
    have hg : ∀ i, find ((k, y) :: wi) i = if i = k then some y else find wi i := fun i => rfl
    refine ⟨h1, ?_, ?_, ?_⟩
    · intro i
      rw [h2, hf, hf, hg]
      by_cases hi : i = k
      · subst hi
        rw [if_pos rfl, if_pos rfl, if_pos rfl, hkw]
        simp only [comb2]
        rw [if_neg hsum]
      · rw [if_neg hi, if_neg hi, if_neg hi]
    · intro i
      rw [h3, hf, hf, hg]
      by_cases hi : i = k
      · subst hi; simp
      · simp [hi]
    · intro i
      rw [h4, hf, hf, hg]
      by_cases hi : i = k
      · subst hi
        have : comb x y ≠ 0 := hsum
        simp [hkw, this]
      · simp [hi]
  | case6 bef ons offs k y wi j x aft hjk hkj sum hsum ih =>
    have hkj' : k = j := by omega
    subst hkj'
    have pw := List.pairwise_cons.mp hw
    have ps := List.pairwise_append.mp hs
    have pa := List.pairwise_cons.mp ps.2.1
    have hk : ∀ e ∈ bef, e.1 < k := fun e he => hb e he (k, y) (by simp)
    have hkw : find wi k = none := find_none_of _ _ fun e he => by
      have := pw.1 e he; simp only at this; omega
    have hkb : find bef k = none := find_none_of _ _ fun e he => by have := hk e he; omega
    have hka : find aft k = none := find_none_of _ _ fun e he => by
      have := pa.1 e he; simp only at this; omega
    have hf : ∀ i, find (bef ++ (k, x) :: aft) i = if i = k then some x else
        find (bef ++ aft) i := by
      intro i
      rw [find_append, find_append]
      simp only [find]
      by_cases hi : i = k
      · subst hi; simp [hkb]
      · simp [hi]
    have hsorted : Sorted (bef ++ aft) := by
      refine sorted_append ps.1 pa.2 ?_
      intro e he f hf
      exact ps.2.2 e he f (by simp [hf])
    have hsum' : comb x y = 0 := not_not.mp hsum
    rw [del_last bef k x hk] at ih
    obtain ⟨h1, h2, h3, h4⟩ := ih hsorted pw.2 (by
      intro e he f hf
      exact hb e he f (by simp [hf]))
    have hg : ∀ i, find ((k, y) :: wi) i = if i = k then some y else find wi i := fun i => rfl
    have hk0 : find (bef ++ aft) k = none := by rw [find_append, hkb, hka]; rfl
    rw [del_last bef k x hk]
    intro r
    refine ⟨h1, ?_, ?_, ?_⟩
    · intro i
      rw [h2, hf, hg]
      by_cases hi : i = k
      · subst hi
        rw [if_pos rfl, if_pos rfl, hkw, hk0]
        simp only [comb2]
        rw [if_pos hsum']
      · rw [if_neg hi, if_neg hi]
    · intro i
      rw [h3, hf, hg]
      by_cases hi : i = k
      · subst hi; simp [hkw]
      · simp [hi]
    · intro i
      rw [h4, hf, hg]
      by_cases hi : i = k
      · subst hi; simp [hsum']
      · simp [hi]

end Eclib.Svec
