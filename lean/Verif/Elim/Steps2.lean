import Verif.Elim.Steps

/-!
# Steps 1 to 4
-/

namespace Eclib.Elim

set_option linter.unusedSectionVars false

open Svec (T smod)

variable {q : ℕ} [hq : Fact q.Prime]

theorem Inv.weaken {t : T} {Ker : (ℕ → ZMod q) → Prop} {s : St} (h : Inv t q Ker none s) (c0 : Option ℕ) : Inv t q Ker c0 s :=
  ⟨h.core, h.cols, h.actPos, fun c ol _ hc => h.idx c ol (by simp) hc⟩

/-- rows without position are not eliminated -/
theorem Core.active {t : T} {Ker : (ℕ → ZMod q) → Prop} {s : St} (h : Core t q Ker s) {r : ℕ} (hr : at' s.position r = none) :
    r ∉ s.elimRow := by
  intro hm
  obtain ⟨_, c, hc, _⟩ := h.piv r hm
  rw [hr] at hc
  cases hc

/-- `next` on a column which is not empty -/
theorem colNext_spec {t : T} {Ker : (ℕ → ZMod q) → Prop} {s : St} (h : Inv t q Ker none s) {c : ℕ} {ol : OL}
    (hol : s.column[c]? = some ol) (hnum : ol.num ≠ 0) :
    ∃ row s1, colNext s (c + 1) = some (row, s1) ∧ s1 = { s with column := s.column.set c { ol with index := 1 } } ∧
      row ∉ s.elimRow ∧ c + 1 ∈ keys (rowOf s.rows row) ∧ Inv t q Ker (some (c + 1)) s1 := by
  have hcl := (List.getElem?_eq_some_iff.1 hol).1
  have hcn : c < s.nco := by rw [← h.cols.len]; exact hcl
  obtain ⟨ol', S, g1, g2, g3⟩ := h.cols.col c hcn
  rw [hol] at g1
  simp only [Option.some.injEq] at g1
  subst g1
  have hidx := (h.idx c ol (by simp) hol).resolve_right hnum
  cases S with
  | nil => exact absurd g2.2.1 (by simpa using hnum)
  | cons x S =>
    obtain ⟨k1, k2⟩ := (g3 x).1 (by simp)
    refine ⟨x, _, ?_, rfl, k1, k2, ⟨⟨h.core.npos, h.core.ncol, h.core.rowOk, h.core.ker, h.core.nodup, h.core.piv, h.core.ecol,
      h.core.tri, h.core.act⟩, ⟨by simpa using h.cols.len, fun d hd => ?_⟩, h.actPos, fun d ol' hd hol' => ?_⟩⟩
    · unfold colNext
      rw [if_neg (by omega), Nat.add_sub_cancel, hol, Option.bind_some, OL.next_spec g2 hidx]
      rfl
    · dsimp only
      by_cases e : d = c
      · subst e
        exact ⟨_, x :: S, List.getElem?_set_self hcl, ⟨g2.1, g2.2.1, g2.2.2⟩, g3⟩
      · rw [List.getElem?_set_ne (Ne.symm e)]
        exact h.cols.col d hd
    · dsimp only at hol'
      have hne : c ≠ d := by rintro rfl; exact hd rfl
      rw [List.getElem?_set_ne hne] at hol'
      exact h.idx d ol' (by simp) hol'

/-! ### step 1 -/

theorem remCols_spec {row : ℕ} : ∀ (l : Row) (cols : List OL) (Q : List ℕ), (keys l).Nodup → (∀ c ∈ keys l, 1 ≤ c) →
    (∀ c ∈ keys l, ∃ ol S, cols[c - 1]? = some ol ∧ Holds ol S ∧ row ∈ S) →
    ∃ cols' ext, remCols row l cols Q = some (cols', Q ++ ext) ∧ cols'.length = cols.length ∧ ext.length ≤ l.length ∧
      (∀ d ∈ ext, d ∈ keys l ∧ ∃ ol', cols'[d - 1]? = some ol' ∧ ol'.num = 1) ∧
      ∀ c ol S, cols[c]? = some ol → Holds ol S → ∃ ol' S', cols'[c]? = some ol' ∧ Holds ol' S' ∧ ol'.index = ol.index ∧
        (c + 1 ∉ keys l → ol' = ol) ∧ ol'.num ≤ ol.num ∧ ∀ x, x ∈ S' ↔ x ∈ S ∧ (c + 1 ∈ keys l → x ≠ row) := by
  intro l
  induction l with
  | nil =>
    intro cols Q _ _ _
    exact ⟨cols, [], by simp [remCols], rfl, by simp, by simp, fun c ol S h1 h2 => ⟨ol, S, h1, h2, rfl, fun _ => rfl, le_rfl, by simp⟩⟩
  | cons e l ih =>
    intro cols Q hnd h1 hc
    rw [keys_cons, List.nodup_cons] at hnd
    have he1 := h1 e.1 (by simp)
    obtain ⟨ol, S, g1, g2, g3⟩ := hc e.1 (by simp)
    have hlt := (List.getElem?_eq_some_iff.1 g1).1
    obtain ⟨ol1, S1, k1, k2, _, k4, _, k6⟩ := OL.remove_spec g2 g3
    have hnum : ol1.num ≤ ol.num := by
      rw [g2.2.1, k2.2.1]
      have hn1 : S1.Nodup := k2.1.imp (fun h => h.ne)
      exact (hn1.subperm (fun x hx => ((k6 x).1 hx).1)).length_le
    obtain ⟨cols', ext, m1, m2, m3, m4, m5⟩ := ih (cols.set (e.1 - 1) ol1) (if ol1.num = 1 then Q ++ [e.1] else Q) hnd.2
      (fun c hc' => h1 c (by simp [hc'])) (fun c hc' => by
        have hne : e.1 - 1 ≠ c - 1 := by
          have := h1 c (by simp [hc'])
          intro h
          have : e.1 = c := by omega
          exact hnd.1 (this ▸ hc')
        rw [List.getElem?_set_ne hne]
        exact hc c (by simp [hc']))
    have hself : ∃ ol' S', cols'[e.1 - 1]? = some ol' ∧ Holds ol' S' ∧ ol' = ol1 ∧ ∀ x, x ∈ S' ↔ x ∈ S1 := by
      obtain ⟨ol', S', p1, p2, _, p4, _, p6⟩ := m5 (e.1 - 1) ol1 S1 (List.getElem?_set_self hlt) k2
      have hn : e.1 - 1 + 1 ∉ keys l := by rw [show e.1 - 1 + 1 = e.1 by omega]; exact hnd.1
      exact ⟨ol', S', p1, p2, p4 hn, fun x => by rw [p6]; simp [hn]⟩
    refine ⟨cols', (if ol1.num = 1 then [e.1] else []) ++ ext, ?_, by simpa using m2, ?_, ?_, fun c ol0 S0 hc0 hS0 => ?_⟩
    · rw [remCols, if_neg (by omega), g1]
      simp only [k1]
      rw [m1]
      split_ifs <;> simp
    · rw [List.length_append, List.length_cons]
      split_ifs <;> simp <;> omega
    · intro d hd
      rcases List.mem_append.1 hd with hd | hd
      · split_ifs at hd with hone
        · simp only [List.mem_singleton] at hd
          subst hd
          obtain ⟨ol', _, p1, _, p3, _⟩ := hself
          exact ⟨by simp, ol', p1, by rw [p3]; exact hone⟩
        · simp at hd
      · exact ⟨by simp [(m4 d hd).1], (m4 d hd).2⟩
    · by_cases hce : c = e.1 - 1
      · subst hce
        rw [g1] at hc0
        simp only [Option.some.injEq] at hc0
        subst hc0
        obtain ⟨ol', S', p1, p2, rfl, p4⟩ := hself
        refine ⟨ol', S', p1, p2, k4, fun hn => absurd (by simp; omega) hn, hnum, fun x => ?_⟩
        have hSS : S = S0 := by
          obtain ⟨_, n1, r1, a1⟩ := g2
          obtain ⟨_, n2, r2, a2⟩ := hS0
          have hlen : S.length = S0.length := by omega
          rw [a1] at a2
          exact List.map_injective_iff.2 (Option.some_injective _) (List.append_inj_left a2 (by simp [hlen]))
        subst hSS
        have hk : e.1 - 1 + 1 ∈ keys (e :: l) := by simp; omega
        rw [p4, k6]
        exact ⟨fun h => ⟨h.1, fun _ => h.2⟩, fun h => ⟨h.1, h.2 hk⟩⟩
      · obtain ⟨ol', S', p1, p2, p3, p4, p5, p6⟩ := m5 c ol0 S0 (by rw [List.getElem?_set_ne (Ne.symm hce)]; exact hc0) hS0
        have : (c + 1 ∈ keys (e :: l)) ↔ c + 1 ∈ keys l := by
          simp only [keys_cons, List.mem_cons]
          constructor
          · rintro (h | h)
            · omega
            · exact h
          · exact Or.inr
        refine ⟨ol', S', p1, p2, p3, fun h => p4 (fun h' => h (this.2 h')), p5, fun x => ?_⟩
        rw [p6, this]

/-- the state of the loop of `step1` -/
structure P1 (t : T) (q : ℕ) (Ker : (ℕ → ZMod q) → Prop) (s0 s : St) (Q : List ℕ) : Prop where
  inv : Inv t q Ker none s
  same : Same s0 s
  ne : NE s
  good : ∀ d ∈ Q, 1 ≤ d ∧ d ≤ s.nco ∧ ∀ ol, s.column[d - 1]? = some ol → ol.num ≤ 1

theorem step1One_spec (X : Marith.XGcd) {t : T} {Ker : (ℕ → ZMod q) → Prop} {s0 s : St} {x : ℕ} {l : List ℕ}
    (h : P1 t q Ker s0 s (x :: l)) :
    ∃ s' l', step1One X t q s x l = some (s', l') ∧ P1 t q Ker s0 s' l' ∧
      ((s'.elimRow.length = s.elimRow.length ∧ l'.length ≤ l.length) ∨
        (s'.elimRow.length = s.elimRow.length + 1 ∧ l'.length ≤ l.length + (s0.rows.length + s0.nco))) := by
  obtain ⟨hx1, hx2, hx3⟩ := h.good x (by simp)
  obtain ⟨c, rfl⟩ : ∃ c, x = c + 1 := ⟨x - 1, by omega⟩
  have hcn : c < s.nco := by omega
  have hcore := h.inv.core
  obtain ⟨ol, S, hol, hS, hmem⟩ := h.inv.cols.col c hcn
  have hone := hx3 ol (by simpa using hol)
  unfold step1One
  rw [if_neg (by omega)]
  simp only [Nat.add_sub_cancel, hol]
  by_cases hnum : ol.num < 1
  · rw [if_pos hnum]
    exact ⟨s, l, rfl, ⟨h.inv, h.same, h.ne, fun d hd => h.good d (by simp [hd])⟩, Or.inl ⟨rfl, le_rfl⟩⟩
  · rw [if_neg hnum]
    obtain ⟨row, s1, k1, k2, k3, k4, k5⟩ := colNext_spec h.inv hol (by omega)
    have hrm := lt_of_mem_keys k4
    obtain ⟨l1, u, n1, n2, n3, n4, n5, n6⟩ := normalize_spec X (hcore.rowOk row) k4
    have hl1 : s1.rows = s.rows := by rw [k2]
    have he1 : s1.elimRow = s.elimRow := by rw [k2]
    have hp1 : s1.position = s.position := by rw [k2]
    have hec1 : s1.elimCol = s.elimCol := by rw [k2]
    have hn1 : s1.nco = s.nco := by rw [k2]
    have hc1 : s1.column.length = s.nco := by rw [k2]; simpa using h.inv.cols.len
    have hcol1 : ∀ d < s.nco, ∃ ol S, s1.column[d]? = some ol ∧ Holds ol S ∧
        ∀ r, r ∈ S ↔ r ∉ s.elimRow ∧ d + 1 ∈ keys (rowOf s.rows r) := by
      intro d hd
      obtain ⟨ol, S, g1, g2, g3⟩ := k5.cols.col d (by rw [hn1]; exact hd)
      rw [hl1, he1] at g3
      exact ⟨ol, S, g1, g2, g3⟩
    obtain ⟨cols', ext, m1, m2, m3, m4, m5⟩ := remCols_spec (row := row) l1 s1.column l (keys_nodup n2) (fun d hd => (n2.range d hd).1)
      (fun d hd => by
        obtain ⟨d1, d2⟩ := n2.range d hd
        obtain ⟨ol, S, g1, g2, g3⟩ := hcol1 (d - 1) (by omega)
        refine ⟨ol, S, g1, g2, (g3 row).2 ⟨k3, ?_⟩⟩
        rw [show d - 1 + 1 = d by omega, ← n3]
        exact hd)
    rw [k1]
    simp only []
    rw [hl1, rowOf_get hrm, Option.bind_some, n1]
    simp only []
    rw [m1]
    simp only []
    have hcle : c < s.elimCol.length := by rw [hcore.ncol]; exact hcn
    have hrp : row < s.position.length := by rw [hcore.npos]; exact hrm
    unfold eliminate
    rw [if_pos (by dsimp only; rw [he1, hp1, hec1]; simp only [List.length_set, Nat.add_sub_cancel]; exact ⟨by omega, hcle, hrp, hcore.rank_lt k3 hrm⟩), Option.map_some]
    simp only [Nat.add_sub_cancel, he1, hp1, hec1, hn1]
    have hro : ∀ r, r ≠ row → rowOf (s.rows.set row l1) r = rowOf s.rows r := by
      intro r hr
      rw [rowOf_set hrm, if_neg hr]
    have hrr : rowOf (s.rows.set row l1) row = l1 := by rw [rowOf_set hrm, if_pos rfl]
    -- column c is only in row `row`
    have hSone : ∀ r, r ∉ s.elimRow → r ≠ row → c + 1 ∉ keys (rowOf s.rows r) := by
      intro r hr hne hk
      have a1 := (hmem r).2 ⟨hr, hk⟩
      have a2 := (hmem row).2 ⟨k3, k4⟩
      have hl : S.length ≤ 1 := by rw [← hS.2.1]; exact hone
      cases S with
      | nil => simp at a1
      | cons y S =>
        have : S = [] := by
          simp at hl
          exact hl
        subst this
        simp at a1 a2
        exact hne (a1.trans a2.symm)
    have hcolS : ∀ d < s.nco, ∃ ol1 ol' S', s1.column[d]? = some ol1 ∧ cols'[d]? = some ol' ∧ Holds ol' S' ∧ ol'.index = ol1.index ∧
        (d + 1 ∉ keys l1 → ol' = ol1) ∧ ol'.num ≤ ol1.num ∧
        ∀ r, r ∈ S' ↔ (r ∉ s.elimRow ∧ r ≠ row) ∧ d + 1 ∈ keys (rowOf (s.rows.set row l1) r) := by
      intro d hd
      obtain ⟨ol0, S0, g1, g2, g3⟩ := hcol1 d hd
      obtain ⟨ol', S', p1, p2, p3, p4, p5, p6⟩ := m5 d ol0 S0 g1 g2
      refine ⟨ol0, ol', S', g1, p1, p2, p3, p4, p5, fun r => ?_⟩
      rw [p6, g3]
      by_cases hr : r = row
      · subst hr
        simp only [ne_eq, not_true_eq_false, and_false, false_and, iff_false, not_and, imp_false]
        rintro ⟨_, h2⟩ h3
        exact h3 (by rw [n3]; exact h2)
      · rw [hro r hr]
        simp [hr]
    have hs1c : ∀ d ol0, d ≠ c → s1.column[d]? = some ol0 → s.column[d]? = some ol0 := by
      intro d ol0 hd h0
      rw [k2] at h0
      dsimp only at h0
      rwa [List.getElem?_set_ne (Ne.symm hd)] at h0
    have hs1n : ∀ (d : ℕ) (ol0 : OL), s1.column[d]? = some ol0 → ∃ ol1 : OL, s.column[d]? = some ol1 ∧ ol0.num = ol1.num := by
      intro d ol0 h0
      by_cases e : d = c
      · subst e
        rw [k2] at h0
        dsimp only at h0
        rw [List.getElem?_set_self (List.getElem?_eq_some_iff.1 hol).1] at h0
        simp only [Option.some.injEq] at h0
        subst h0
        exact ⟨ol, hol, rfl⟩
      · exact ⟨ol0, hs1c d ol0 e h0, rfl⟩
    refine ⟨_, _, rfl, ⟨⟨?_, ?_, ?_, ?_⟩, ?_, ?_, ?_⟩, Or.inr ⟨by simp, ?_⟩⟩
    · refine hcore.pivot (row := row) (c := c) (u := u) k3 k4 ⟨rfl, by simp⟩ (by simp) (by simp) ?_ n4 ?_ ?_ ?_ ?_ rfl ?_ ?_ ?_
      · intro r
        dsimp only
        by_cases hr : r = row
        · rw [hr, hrr]; exact n2
        · rw [hro r hr]; exact hcore.rowOk r
      · intro y
        dsimp only
        rw [hrr]
        exact n5 y
      · dsimp only
        rw [hrr]
        exact n6
      · intro r hr
        exact hro r (fun e => k3 (e ▸ hr))
      · intro r hr hne
        dsimp only
        rw [hro r hne]
        exact ⟨hSone r hr hne, 0, by simp⟩
      · intro r hr
        dsimp only
        rw [at_set hrp, if_neg]
        exact fun e => k3 (e ▸ hr)
      · dsimp only
        rw [at_set hrp, if_pos rfl]
      · intro d
        dsimp only
        rw [at_set hcle]
    · refine ⟨m2.trans hc1, fun d hd => ?_⟩
      dsimp only at hd ⊢
      obtain ⟨_, ol', S', _, p2, p3, _, _, _, p6⟩ := hcolS d hd
      refine ⟨ol', S', p2, p3, fun r => ?_⟩
      rw [p6]
      simp
    · intro r hr
      dsimp only at hr ⊢
      simp only [List.mem_append, List.mem_singleton, not_or] at hr
      rw [at_set hrp, if_neg hr.2, hro r hr.2]
      exact h.inv.actPos r hr.1
    · intro d ol' _ hd
      dsimp only at hd
      have hdn : d < s.nco := by
        have := (List.getElem?_eq_some_iff.1 hd).1
        omega
      obtain ⟨ol0, ol2, S', p1, p2, p3, p4, p5, p6, p7⟩ := hcolS d hdn
      rw [p2] at hd
      simp only [Option.some.injEq] at hd
      subst hd
      by_cases e : d = c
      · subst e
        right
        rw [p3.2.1, List.length_eq_zero_iff, List.eq_nil_iff_forall_not_mem]
        intro r hr
        obtain ⟨⟨q1, q2⟩, q3⟩ := (p7 r).1 hr
        rw [hro r q2] at q3
        exact hSone r q1 q2 q3
      · rcases h.inv.idx d ol0 (by simp) (hs1c d ol0 e p1) with g | g
        · left; rw [p4]; exact g
        · right; omega
    · exact h.same.trans ⟨rfl, by simp⟩
    · intro r h1 h2 h3
      dsimp only at h1 h2 h3 ⊢
      simp only [List.mem_append, List.mem_singleton, not_or] at h2
      rw [at_set hrp, if_neg h2.2] at h3
      rw [hro r h2.2]
      exact h.ne r (by simpa using h1) h2.1 h3
    · intro d hd
      dsimp only
      rcases List.mem_append.1 hd with hd | hd
      · obtain ⟨g1, g2, g3⟩ := h.good d (by simp [hd])
        refine ⟨g1, g2, fun ol' hol' => ?_⟩
        obtain ⟨ol0, ol2, S', p1, p2, _, _, _, p6, _⟩ := hcolS (d - 1) (by omega)
        rw [p2] at hol'
        simp only [Option.some.injEq] at hol'
        subst hol'
        obtain ⟨ol1, r1, r2⟩ := hs1n (d - 1) ol0 p1
        have := g3 ol1 r1
        omega
      · obtain ⟨g1, ol2, g2, g3⟩ := m4 d hd
        obtain ⟨r1, r2⟩ := n2.range d g1
        refine ⟨r1, r2, fun ol' hol' => ?_⟩
        rw [g2] at hol'
        simp only [Option.some.injEq] at hol'
        subst hol'
        omega
    · rw [List.length_append]
      have h1 := n2.length_le
      have h2 := h.same.1
      omega

theorem rank_fuel {m K a b f : ℕ} (h : (m + 1) * (K + 1) ≤ f) (ha : b ≤ K + 1) : (m - a) * (K + 1) + b ≤ f := by
  have h1 : (m - a) * (K + 1) ≤ m * (K + 1) := Nat.mul_le_mul_right _ (by omega)
  rw [add_mul] at h
  omega

theorem step1_spec (X : Marith.XGcd) {t : T} {Ker : (ℕ → ZMod q) → Prop} {s : St} (h : Inv t q Ker none s) (hne : NE s)
    {fuel : ℕ} (hf : (s.rows.length + 1) * (s.rows.length + s.nco + 1) ≤ fuel) :
    ∃ s', step1 X t q fuel s = some s' ∧ Inv t q Ker none s' ∧ Same s s' ∧ NE s' := by
  unfold step1
  obtain ⟨s', k1, k2⟩ := listLoop_spec (one := step1One X t q) (P1 t q Ker s) (m := s.rows.length) (K := s.rows.length + s.nco)
    (fun s' x l hs' => step1One_spec X hs')
    (fun s' l hs' => by rw [← hs'.same.2]; exact hs'.inv.core.rank_le) fuel s
    (((List.range s.nco).filter fun c => colNum s c = 1).map (· + 1))
    ⟨h, Same.refl s, hne, fun d hd => by
      simp only [List.mem_map, List.mem_filter, List.mem_range, decide_eq_true_eq] at hd
      obtain ⟨c, ⟨g1, g2⟩, rfl⟩ := hd
      refine ⟨by omega, by omega, fun ol hol => ?_⟩
      unfold colNum at g2
      simp only [Nat.add_sub_cancel] at hol
      rw [hol] at g2
      simp at g2
      omega⟩ (rank_fuel hf (by
        rw [List.length_map]
        refine (List.length_filter_le _ _).trans ?_
        simp
        omega))
  exact ⟨s', k1, k2.inv, k2.same, k2.ne⟩

/-! ### step 2 -/

/-- the state of the loop of `step2` -/
structure P2 (t : T) (q : ℕ) (Ker : (ℕ → ZMod q) → Prop) (s0 s : St) (Q : List ℕ) : Prop where
  inv : Inv t q Ker none s
  same : Same s0 s
  ne : NE s
  good : ∀ r ∈ Q, r < s.rows.length

theorem step2One_spec (X : Marith.XGcd) {t : T} {Ker : (ℕ → ZMod q) → Prop} {s0 s : St} {x : ℕ} {l : List ℕ}
    (h : P2 t q Ker s0 s (x :: l)) :
    ∃ s' l', step2One X t q s x l = some (s', l') ∧ P2 t q Ker s0 s' l' ∧
      ((s'.elimRow.length = s.elimRow.length ∧ l'.length ≤ l.length) ∨
        (s'.elimRow.length = s.elimRow.length + 1 ∧ l'.length ≤ l.length + (s0.rows.length + s0.nco))) := by
  have hx := h.good x (by simp)
  have hcore := h.inv.core
  unfold step2One
  rw [at_get (by rw [hcore.npos]; exact hx)]
  cases hp : at' s.position x with
  | some y =>
    exact ⟨s, l, rfl, ⟨h.inv, h.same, h.ne, fun d hd => h.good d (by simp [hd])⟩, Or.inl ⟨rfl, le_rfl⟩⟩
  | none =>
    have hx2 := hcore.active hp
    simp only []
    rw [rowOf_get hx]
    have hnz := h.ne x hx hx2 hp
    cases hrow : rowOf s.rows x with
    | nil => exact absurd hrow hnz
    | cons e l0 =>
      obtain ⟨d, v⟩ := e
      have hk : d ∈ keys (rowOf s.rows x) := by rw [hrow]; simp
      obtain ⟨c, rfl⟩ : ∃ c, d = c + 1 := ⟨d - 1, by have := ((hcore.rowOk x).range d hk).1; omega⟩
      obtain ⟨s', L', li', k1, k2, k3, k4, _, k6, ext, k7, k8, k9, _⟩ := pivot_spec X ⟨true, false, 0⟩ l [] (h.inv.weaken (some (c + 1))) hx2 hk (by simp)
      simp only []
      rw [k1]
      refine ⟨s', L', rfl, ⟨k2, h.same.trans k3, k6 rfl h.ne, fun r hr => ?_⟩, Or.inr ⟨by rw [k4]; simp, ?_⟩⟩
      · rw [k3.2]
        rw [k7] at hr
        rcases List.mem_append.1 hr with hr | hr
        · exact h.good r (by simp [hr])
        · exact k9 rfl r hr
      · rw [k7, List.length_append]
        have h1 := h.same.1
        have h2 := h.same.2
        omega

theorem step2_spec (X : Marith.XGcd) {t : T} {Ker : (ℕ → ZMod q) → Prop} {s : St} (h : Inv t q Ker none s) (hne : NE s)
    {fuel : ℕ} (hf : (s.rows.length + 1) * (s.rows.length + s.nco + 1) ≤ fuel) :
    ∃ s', step2 X t q fuel s = some s' ∧ Inv t q Ker none s' ∧ Same s s' := by
  unfold step2
  obtain ⟨s', k1, k2⟩ := listLoop_spec (one := step2One X t q) (P2 t q Ker s) (m := s.rows.length) (K := s.rows.length + s.nco)
    (fun s' x l hs' => step2One_spec X hs')
    (fun s' l hs' => by rw [← hs'.same.2]; exact hs'.inv.core.rank_le) fuel s
    ((List.range s.rows.length).filter fun r =>
      ((s.rows[r]?).getD []).length < 3 ∧ (s.position[r]?).getD none = none)
    ⟨h, Same.refl s, hne, fun r hr => List.mem_range.1 (List.mem_filter.1 hr).1⟩ (rank_fuel hf (by
        refine (List.length_filter_le _ _).trans ?_
        simp
        omega))
  exact ⟨s', k1, k2.inv, k2.same⟩

/-! ### step 3 -/

/-- the state of the loop of `step3` -/
structure P3 (t : T) (q : ℕ) (Ker : (ℕ → ZMod q) → Prop) (s0 s : St) (Q : List ℕ) : Prop where
  inv : Inv t q Ker none s
  same : Same s0 s
  good : ∀ d ∈ Q, 1 ≤ d ∧ d ≤ s.nco

theorem step3One_spec (X : Marith.XGcd) {t : T} {Ker : (ℕ → ZMod q) → Prop} {s0 s : St} {x : ℕ} {l : List ℕ}
    (h : P3 t q Ker s0 s (x :: l)) :
    ∃ s' l', step3One X t q s x l = some (s', l') ∧ P3 t q Ker s0 s' l' ∧
      ((s'.elimRow.length = s.elimRow.length ∧ l'.length ≤ l.length) ∨
        (s'.elimRow.length = s.elimRow.length + 1 ∧ l'.length ≤ l.length + (s0.rows.length + s0.nco))) := by
  obtain ⟨hx1, hx2⟩ := h.good x (by simp)
  obtain ⟨c, rfl⟩ : ∃ c, x = c + 1 := ⟨x - 1, by omega⟩
  obtain ⟨ol, S, hol, hS, hmem⟩ := h.inv.cols.col c (by omega)
  unfold step3One
  rw [if_neg (by omega)]
  simp only [Nat.add_sub_cancel, hol]
  by_cases hnum : ol.num < 1
  · rw [if_pos hnum]
    exact ⟨s, l, rfl, ⟨h.inv, h.same, fun d hd => h.good d (by simp [hd])⟩, Or.inl ⟨rfl, le_rfl⟩⟩
  · rw [if_neg hnum]
    obtain ⟨row, s1, m1, m2, m3, m4, m5⟩ := colNext_spec h.inv hol (by omega)
    have hr1 : s1.rows = s.rows := by rw [m2]
    have he1 : s1.elimRow = s.elimRow := by rw [m2]
    have hn1 : s1.nco = s.nco := by rw [m2]
    obtain ⟨s', L', li', k1, k2, k3, k4, _, _, ext, k7, k8, _, k9⟩ := pivot_spec X ⟨false, true, 0⟩ (row := row) l [] m5
      (by rw [he1]; exact m3) (by rw [hr1]; exact m4) (by simp)
    rw [m1]
    simp only []
    rw [k1]
    have hsame : Same s s' := ⟨k3.1.trans hn1, k3.2.trans (by rw [hr1])⟩
    refine ⟨s', L', rfl, ⟨k2, h.same.trans hsame, fun d hd => ?_⟩, Or.inr ⟨by rw [k4, he1]; simp, ?_⟩⟩
    · rw [hsame.1]
      rw [k7] at hd
      rcases List.mem_append.1 hd with hd | hd
      · exact h.good d (by simp [hd])
      · have := k9 rfl d hd
        omega
    · rw [k7, List.length_append]
      rw [hr1, hn1] at k8
      have h1 := h.same.1
      have h2 := h.same.2
      omega

theorem step3_spec (X : Marith.XGcd) {t : T} {Ker : (ℕ → ZMod q) → Prop} {s : St} (h : Inv t q Ker none s)
    {fuel : ℕ} (hf : (s.rows.length + 1) * (s.rows.length + s.nco + 1) ≤ fuel) :
    ∃ s', step3 X t q fuel s = some s' ∧ Inv t q Ker none s' ∧ Same s s' := by
  unfold step3
  obtain ⟨s', k1, k2⟩ := listLoop_spec (one := step3One X t q) (P3 t q Ker s) (m := s.rows.length) (K := s.rows.length + s.nco)
    (fun s' x l hs' => step3One_spec X hs')
    (fun s' l hs' => by rw [← hs'.same.2]; exact hs'.inv.core.rank_le) fuel s
    (((List.range s.nco).reverse.filter fun c => colNum s c = 2 ∨ colNum s c = 1).map (· + 1))
    ⟨h, Same.refl s, fun d hd => by
      simp only [List.mem_map, List.mem_filter, List.mem_reverse, List.mem_range] at hd
      obtain ⟨c, ⟨g1, _⟩, rfl⟩ := hd
      omega⟩ (rank_fuel hf (by
        rw [List.length_map]
        refine (List.length_filter_le _ _).trans ?_
        simp
        omega))
  exact ⟨s', k1, k2.inv, k2.same⟩

/-! ### step 4 -/

theorem hasWeightOne_spec {li : List ℕ} : ∀ (l : Row) (wt : ℕ), (∀ d ∈ keys l, 1 ≤ d ∧ d ≤ li.length) →
    ∃ b, hasWeightOne li l wt = some b ∧ (b = true → wt ≠ 1 → ∃ e ∈ l, li[e.1 - 1]? = some 1) := by
  intro l
  induction l with
  | nil =>
    intro wt _
    refine ⟨_, rfl, fun h1 h2 => ?_⟩
    simp at h1
    exact absurd h1 h2
  | cons e l ih =>
    intro wt hr
    obtain ⟨h1, h2⟩ := hr e.1 (by simp)
    rw [hasWeightOne, if_neg (by omega)]
    have hlt : e.1 - 1 < li.length := by omega
    rw [List.getElem?_eq_getElem hlt]
    simp only []
    by_cases hw : wt + li[e.1 - 1] > 1
    · rw [if_pos hw]
      exact ⟨false, rfl, by simp⟩
    · rw [if_neg hw]
      obtain ⟨b, k1, k2⟩ := ih (wt + li[e.1 - 1]) (fun d hd => hr d (by simp [hd]))
      refine ⟨b, k1, fun hb hwt => ?_⟩
      by_cases h1 : li[e.1 - 1] = 1
      · exact ⟨e, by simp, by rw [List.getElem?_eq_getElem hlt, h1]⟩
      · obtain ⟨e', g1, g2⟩ := k2 hb (by omega)
        exact ⟨e', by simp [g1], g2⟩

theorem findRow_spec {t : T} {Ker : (ℕ → ZMod q) → Prop} {s : St} (h : Core t q Ker s) {li : List ℕ} (hli : li.length = s.nco) :
    ∀ rs : List ℕ, (∀ r ∈ rs, r < s.rows.length) → ∃ o, findRow s li rs = some o ∧
      ∀ r, o = some r → r < s.rows.length ∧ at' s.position r = none ∧ ∃ e ∈ rowOf s.rows r, li[e.1 - 1]? = some 1 := by
  intro rs
  induction rs with
  | nil => intro _; exact ⟨none, rfl, by simp⟩
  | cons r rs ih =>
    intro hr
    have hr0 := hr r (by simp)
    obtain ⟨b, k1, k2⟩ := hasWeightOne_spec (li := li) (rowOf s.rows r) 0 (fun d hd => by rw [hli]; exact (h.rowOk r).range d hd)
    rw [findRow, rowOf_get hr0, Option.bind_some, k1, at_get (by rw [h.npos]; exact hr0)]
    simp only []
    by_cases hb : (b : Prop) ∧ at' s.position r = none
    · rw [if_pos hb]
      refine ⟨_, rfl, fun r' hr' => ?_⟩
      simp only [Option.some.injEq] at hr'
      subst hr'
      exact ⟨hr0, hb.2, k2 hb.1 (by omega)⟩
    · rw [if_neg hb]
      exact ih (fun r hr' => hr r (by simp [hr']))

theorem step4Inner_spec (X : Marith.XGcd) {t : T} {Ker : (ℕ → ZMod q) → Prop} (M : ℕ) : ∀ (fuel : ℕ) (s : St) (li : List ℕ),
    Inv t q Ker none s → li.length = s.nco → s.rows.length - s.elimRow.length < fuel →
    ∃ s' li', step4Inner X t q M fuel s li = some (s', li') ∧ Inv t q Ker none s' ∧ Same s s' := by
  intro fuel
  induction fuel with
  | zero => intro s li _ _ h; omega
  | succ f ih =>
    intro s li h hli hf
    obtain ⟨o, k1, k2⟩ := findRow_spec h.core hli (List.range s.rows.length) (fun r hr => List.mem_range.1 hr)
    rw [step4Inner, k1]
    cases o with
    | none => exact ⟨s, li, rfl, h, Same.refl s⟩
    | some row =>
      obtain ⟨g1, g2, e0, g3, g4⟩ := k2 row rfl
      have hact := h.core.active g2
      simp only []
      have hfind : ∃ e, ((s.rows[row]?).getD []).find? (fun e => decide (li[e.1 - 1]? = some 1)) = some e ∧ e ∈ rowOf s.rows row := by
        cases hh : ((s.rows[row]?).getD []).find? (fun e => decide (li[e.1 - 1]? = some 1)) with
        | none =>
          rw [List.find?_eq_none] at hh
          exact absurd (decide_eq_true g4) (hh e0 g3)
        | some e => exact ⟨e, rfl, List.mem_of_find?_eq_some hh⟩
      obtain ⟨e, m1, m2⟩ := hfind
      have hek : e.1 ∈ keys (rowOf s.rows row) := List.mem_map_of_mem m2
      obtain ⟨c, hc⟩ : ∃ c, e.1 = c + 1 := ⟨e.1 - 1, by have := ((h.core.rowOk row).range _ hek).1; omega⟩
      rw [m1]
      simp only [hc]
      rw [hc] at hek
      obtain ⟨s', L', li', n1, n2, n3, n4, n5, _⟩ := pivot_spec X ⟨false, false, M⟩ [] li (h.weaken (some (c + 1))) hact hek (fun _ => hli)
      rw [n1]
      simp only []
      have hrk := h.core.rank_lt hact g1
      obtain ⟨s'', li'', p1, p2, p3⟩ := ih s' li' n2 (by rw [n5, n3.1, hli]) (by rw [n3.2, n4]; simp; omega)
      exact ⟨s'', li'', p1, p2, n3.trans p3⟩

theorem step4Loop_spec (X : Marith.XGcd) {t : T} {Ker : (ℕ → ZMod q) → Prop} {fuel Mstep : ℕ} (hM : 1 ≤ Mstep) : ∀ (f M : ℕ) (s : St),
    Inv t q Ker none s → s.rows.length < fuel → M < f →
    ∃ s', step4Loop X t q fuel Mstep f M s = some s' ∧ Inv t q Ker none s' ∧ Same s s' := by
  intro f
  induction f with
  | zero => intro M s _ _ h; omega
  | succ f ih =>
    intro M s h hf hMf
    rw [step4Loop]
    by_cases h3 : 3 ≤ M
    · rw [if_pos h3]
      dsimp only
      split_ifs
      · exact ⟨s, rfl, h, Same.refl s⟩
      · obtain ⟨s', li', k1, k2, k3⟩ := step4Inner_spec X (t := t) M fuel s
          ((List.range s.nco).map fun c => if 0 < colNum s c ∧ colNum s c ≤ M then 1 else 0) h (by simp) (by omega)
        rw [k1]
        simp only []
        obtain ⟨s'', m1, m2, m3⟩ := ih (M - Mstep) s' k2 (by rw [k3.2]; exact hf) (by omega)
        exact ⟨s'', m1, m2, k3.trans m3⟩
    · rw [if_neg h3]
      exact ⟨s, rfl, h, Same.refl s⟩

theorem step4_spec (X : Marith.XGcd) {t : T} {Ker : (ℕ → ZMod q) → Prop} {s : St} (h : Inv t q Ker none s)
    {fuel : ℕ} (hf : s.rows.length < fuel) :
    ∃ s', step4 X t q fuel s = some s' ∧ Inv t q Ker none s' ∧ Same s s' := by
  unfold step4
  dsimp only
  exact step4Loop_spec X (by split_ifs <;> omega) _ _ s h hf (by omega)

end Eclib.Elim
