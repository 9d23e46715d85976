import Verif.Elim.Inv

/-!
# `clear_col` and the elimination of one row
-/

namespace Eclib.Elim

set_option linter.unusedSectionVars false

open Svec (T smod)

variable {q : ℕ} [hq : Fact q.Prime]

theorem afterCol_spec (fl : Flags) (c num : ℕ) (L li : List ℕ) (hli : fl.M ≠ 0 → c - 1 < li.length) :
    ∃ ext li', afterCol fl c num L li = some (L ++ ext, li') ∧ li'.length = li.length ∧ ext.length ≤ 1 ∧ (∀ x ∈ ext, x = c) ∧
      (fl.fc = false → ext = []) := by
  unfold afterCol
  obtain ⟨ext, he, he1, he2, he3⟩ : ∃ ext, (if fl.fc = true ∧ (num = 2 ∨ num = 1) then L ++ [c] else L) = L ++ ext ∧
      ext.length ≤ 1 ∧ (∀ x ∈ ext, x = c) ∧ (fl.fc = false → ext = []) := by
    split_ifs with h
    · exact ⟨[c], rfl, by simp, by simp, fun h' => by rw [h'] at h; cases h.1⟩
    · exact ⟨[], by simp⟩
  simp only [he]
  by_cases hM : fl.M = 0
  · rw [if_pos hM]
    exact ⟨ext, li, rfl, rfl, he1, he2, he3⟩
  · rw [if_neg hM, if_pos (hli hM)]
    exact ⟨ext, _, rfl, by simp, he1, he2, he3⟩

/-- one column of `clear_col` -/
theorem colUpdate_spec {ls row : ℕ} (hls : 0 < ls) {ol : OL} {S : List ℕ} (hS : Holds ol S) (hr : row ∈ S) {I O : List ℕ}
    (hO : O.Pairwise (· < ·)) (hOs : ∀ x ∈ O, x ∈ S ∧ x ≠ row) (hI : I.Pairwise (· < ·)) (hIs : ∀ x ∈ I, x ∉ S) :
    ∃ ol' S', ((ol.remove row).bind fun ol => (ol.removeList O).bind fun ol => ol.putList ls I) = some ol' ∧ Holds ol' S' ∧
      (ol.index = 0 → ol'.index = 0) ∧ ∀ x, x ∈ S' ↔ (x ∈ S ∧ x ≠ row ∧ x ∉ O) ∨ x ∈ I := by
  obtain ⟨o1, S1, a1, a2, a3, a4, _, a6⟩ := OL.remove_spec hS hr
  obtain ⟨o2, S2, b1, b2, b3, b4, _, b6⟩ := OL.removeList_spec a2 a3 (fun x hx => ((a6 x).1 hx).1) hO
    (fun x hx => (a6 x).2 (hOs x hx))
  obtain ⟨o3, S3, c1, c2, c3, c4⟩ := OL.putList_spec hls b2 b3 (fun x hx => ((a6 x).1 ((b6 x).1 hx).1).1) hI hIs
  refine ⟨o3, S3, ?_, c2, fun h => c3 (b4 (a4.trans h)), fun x => ?_⟩
  · rw [a1, Option.bind_some, b1, Option.bind_some, c1]
  · rw [c4, b6, a6]
    tauto

theorem clearCols_spec (fl : Flags) {ls row : ℕ} (hls : 0 < ls) : ∀ (l : Row) (I O : ℕ × ℤ → List ℕ) (cols : List OL) (L li : List ℕ),
    (keys l).Nodup → (∀ c ∈ keys l, 1 ≤ c) →
    (∀ e ∈ l, ∃ ol S, cols[e.1 - 1]? = some ol ∧ Holds ol S ∧ row ∈ S ∧ (O e).Pairwise (· < ·) ∧ (∀ x ∈ O e, x ∈ S ∧ x ≠ row) ∧
      (I e).Pairwise (· < ·) ∧ ∀ x ∈ I e, x ∉ S) →
    (fl.M ≠ 0 → ∀ c ∈ keys l, c - 1 < li.length) →
    ∃ cols' L' li', clearCols fl ls row l (l.map I) (l.map O) cols L li = some (cols', L', li') ∧ cols'.length = cols.length ∧
      (∀ c, c + 1 ∉ keys l → cols'[c]? = cols[c]?) ∧
      (∀ e ∈ l, ∀ ol S, cols[e.1 - 1]? = some ol → Holds ol S → ∃ ol' S', cols'[e.1 - 1]? = some ol' ∧ Holds ol' S' ∧
        (ol.index = 0 → ol'.index = 0) ∧ ∀ x, x ∈ S' ↔ (x ∈ S ∧ x ≠ row ∧ x ∉ O e) ∨ x ∈ I e) ∧
      li'.length = li.length ∧
      ∃ ext, L' = L ++ ext ∧ ext.length ≤ l.length ∧ (∀ c ∈ ext, c ∈ keys l) ∧ (fl.fc = false → ext = []) := by
  intro l
  induction l with
  | nil =>
    intro I O cols L li _ _ _ _
    exact ⟨cols, L, li, rfl, rfl, by simp, by simp, rfl, [], by simp⟩
  | cons e l ih =>
    intro I O cols L li hnd h1 hcols hli
    rw [keys_cons, List.nodup_cons] at hnd
    obtain ⟨ol, S, e1, e2, e3, e4, e5, e6, e7⟩ := hcols e (by simp)
    obtain ⟨ol', S', f1, f2, f3, f4⟩ := colUpdate_spec hls e2 e3 e4 e5 e6 e7
    obtain ⟨ext0, li', g1, g2, g3, g4, g5⟩ := afterCol_spec fl e.1 ol'.num L li (fun h => hli h e.1 (by simp))
    have he1 := h1 e.1 (by simp)
    have hlt : e.1 - 1 < cols.length := by
      rw [List.getElem?_eq_some_iff] at e1
      exact e1.1
    have hother : ∀ d, d ∈ keys l → (cols.set (e.1 - 1) ol')[d - 1]? = cols[d - 1]? := by
      intro d hd
      have := h1 d (by simp [hd])
      have hne : d ≠ e.1 := fun h => hnd.1 (h ▸ hd)
      rw [List.getElem?_set_ne]
      omega
    obtain ⟨cols', L', li'', k1, k2, k3, k4, k5, ext, k6, k7, k8, k9⟩ := ih I O (cols.set (e.1 - 1) ol') (L ++ ext0) li' hnd.2
      (fun c hc => h1 c (by simp [hc]))
      (fun f hf => by
        rw [hother f.1 (List.mem_map_of_mem hf)]
        exact hcols f (by simp [hf]))
      (fun h c hc => by rw [g2]; exact hli h c (by simp [hc]))
    refine ⟨cols', L', li'', ?_, by simpa using k2, ?_, ?_, k5.trans g2, ext0 ++ ext, by rw [k6, List.append_assoc], by simp; omega, ?_, ?_⟩
    · rw [List.map_cons, List.map_cons, clearCols, if_neg (by omega), e1, Option.bind_some, f1]
      simp only [g1]
      exact k1
    · intro c hc
      simp only [keys_cons, List.mem_cons, not_or] at hc
      rw [k3 c hc.2, List.getElem?_set_ne]
      omega
    · intro f hf ol2 S2 hol2 hS2
      rcases List.mem_cons.1 hf with rfl | hf
      · have hkk := k3 (f.1 - 1) (by rw [show f.1 - 1 + 1 = f.1 by omega]; exact hnd.1)
        rw [List.getElem?_set_self hlt] at hkk
        rw [e1] at hol2
        simp only [Option.some.injEq] at hol2
        subst hol2
        refine ⟨ol', S', hkk, f2, f3, fun x => ?_⟩
        have hSS : S = S2 := by
          obtain ⟨_, n1, r1, a1⟩ := e2
          obtain ⟨_, n2, r2, a2⟩ := hS2
          have hlen : S.length = S2.length := by omega
          rw [a1] at a2
          have := List.append_inj_left a2 (by simp [hlen])
          exact List.map_injective_iff.2 (Option.some_injective _) this
        rw [f4, hSS]
      · exact k4 f hf ol2 S2 (by rw [hother f.1 (List.mem_map_of_mem hf)]; exact hol2) hS2
    · intro c hc
      rcases List.mem_append.1 hc with h | h
      · simp [g4 c h]
      · simp [k8 c h]
    · intro h
      rw [g5 h, k9 h]
      rfl

theorem clearSingle_eq (fl : Flags) (ls row : ℕ) : ∀ (l : Row) (cols : List OL) (L li : List ℕ),
    clearSingle fl row l cols L li = clearCols fl ls row l (l.map fun _ => []) (l.map fun _ => []) cols L li := by
  intro l
  induction l with
  | nil => intro cols L li; rfl
  | cons e l ih =>
    intro cols L li
    rw [List.map_cons, clearSingle, clearCols]
    have h : ∀ o : Option OL, (o.bind fun ol => (ol.remove row).bind fun ol => (ol.removeList []).bind fun ol => ol.putList ls []) =
        o.bind (OL.remove · row) := by
      intro o
      cases o with
      | none => rfl
      | some o =>
        rw [Option.bind_some, Option.bind_some]
        cases o.remove row with
        | none => rfl
        | some o => rfl
    rw [h]
    simp only [ih]

/-- `clear_col` -/
theorem clearCol_spec {t : T} {s : St} (fl : Flags) {row c : ℕ} (L li : List ℕ) (hcols : Cols s) (hrow : row ∉ s.elimRow)
    (hok : ∀ r, RowOk t q s.nco (rowOf s.rows r)) (hone : coef q (rowOf s.rows row) (c + 1) = 1)
    (hpl : s.position.length = s.rows.length) (hli : fl.M ≠ 0 → li.length = s.nco) :
    ∃ s' L' li', clearCol t q fl s row (c + 1) L li = some (s', L', li') ∧ Same s s' ∧ s'.elimRow = s.elimRow ∧ s'.elimCol = s.elimCol ∧
      s'.position.length = s.position.length ∧ s'.column.length = s.column.length ∧ li'.length = li.length ∧
      (∀ r, rowOf s'.rows r = if r ∉ s.elimRow ∧ r ≠ row ∧ c + 1 ∈ keys (rowOf s.rows r)
        then nw t q (c + 1) (rowOf s.rows row) (rowOf s.rows r) else rowOf s.rows r) ∧
      (∀ r, at' s'.position r = at' s.position r ∨ (fl.fr = true ∧ at' s'.position r = some 0 ∧ rowOf s'.rows r = [] ∧
        r ∉ s.elimRow ∧ r ≠ row ∧ c + 1 ∈ keys (rowOf s.rows r))) ∧
      (fl.fr = true → ∀ r, rowOf s'.rows r = [] → r ∉ s.elimRow → r ≠ row → c + 1 ∈ keys (rowOf s.rows r) → at' s'.position r = some 0) ∧
      (∀ d < s.nco, d ≠ c → ∃ ol ol' S', s.column[d]? = some ol ∧ s'.column[d]? = some ol' ∧ Holds ol' S' ∧
        ((ol.index = 0 ∧ ol'.index = 0) ∨ ol' = ol ∨ (ol.index ≠ 0 ∧ ol.num ≠ 0)) ∧
        ∀ x, x ∈ S' ↔ x ∉ s.elimRow ∧ x ≠ row ∧ d + 1 ∈ keys (rowOf s'.rows x)) ∧
      ∃ ext, L' = L ++ ext ∧ ext.length ≤ s.rows.length + s.nco ∧ (fl.fc = false → ∀ r ∈ ext, r < s.rows.length) ∧
        (fl.fr = false → ∀ d ∈ ext, 1 ≤ d ∧ d ≤ s.nco) := by
  have hck : c + 1 ∈ keys (rowOf s.rows row) := by
    rw [← coef_ne_zero_iff (hok row), hone]
    exact one_ne_zero
  have hrm := lt_of_mem_keys hck
  have hcn : c < s.nco := by have := ((hok row).range _ hck).2; omega
  obtain ⟨ol0, S0, hol0, hS0, hmem0⟩ := hcols.col c hcn
  have hrS : row ∈ S0 := (hmem0 row).2 ⟨hrow, hck⟩
  have hnum : 0 < ol0.num := by
    rw [hS0.2.1]
    exact List.length_pos_of_mem hrS
  obtain ⟨l1, hl1⟩ : ∃ l1, l1 = rowOf s.rows row := ⟨_, rfl⟩
  have hk1 : (keys l1).Nodup := by rw [hl1]; exact (hok row).sorted.imp (fun h => h.ne)
  have hkr : ∀ d ∈ keys l1, 1 ≤ d ∧ d ≤ s.nco := by rw [hl1]; exact (hok row).range
  have hlen1 : l1.length ≤ s.nco := by
    have h1 : (keys l1).toFinset ⊆ Finset.Icc 1 s.nco := by
      intro d hd
      rw [List.mem_toFinset] at hd
      exact Finset.mem_Icc.2 (hkr d hd)
    have h2 := Finset.card_le_card h1
    rw [List.toFinset_card_of_nodup hk1] at h2
    simpa [keys] using h2
  have hS0r : ∀ r ∈ S0, r < s.rows.length := fun r hr => lt_of_mem_keys ((hmem0 r).1 hr).2
  have hS0n : S0.Nodup := hS0.1.imp (fun h => h.ne)
  have hlenS : S0.length ≤ s.rows.length := by
    have h1 : S0.toFinset ⊆ Finset.range s.rows.length := by
      intro d hd
      rw [List.mem_toFinset] at hd
      exact Finset.mem_range.2 (hS0r d hd)
    have h2 := Finset.card_le_card h1
    rw [List.toFinset_card_of_nodup hS0n] at h2
    simpa using h2
  have hli2 : fl.M ≠ 0 → ∀ d ∈ keys l1, d - 1 < li.length := by
    intro h d hd
    have := hkr d hd
    rw [hli h]
    omega
  unfold clearCol
  rw [if_neg (by omega), rowOf_get hrm, Nat.add_sub_cancel, hol0]
  simp only []
  by_cases h1 : ol0.num = 1
  · -- the only row of the column
    rw [if_pos h1, clearSingle_eq fl 1]
    have hS01 : S0 = [row] := by
      have : S0.length = 1 := by rw [← hS0.2.1, h1]
      obtain ⟨x, hx⟩ := List.length_eq_one_iff.1 this
      rw [hx] at hrS ⊢
      rw [List.mem_singleton] at hrS
      rw [hrS]
    have hno : ∀ r, ¬ (r ∉ s.elimRow ∧ r ≠ row ∧ c + 1 ∈ keys (rowOf s.rows r)) := by
      rintro r ⟨g1, g2, g3⟩
      have := (hmem0 r).2 ⟨g1, g3⟩
      rw [hS01, List.mem_singleton] at this
      exact g2 this
    obtain ⟨cols', L', li', k1, k2, k3, k4, k5, ext, k6, k7, k8, k9⟩ := clearCols_spec fl (ls := 1) (row := row) one_pos l1
      (fun _ => []) (fun _ => []) s.column L li hk1 (fun d hd => (hkr d hd).1) (fun e he => by
        have hd := hkr e.1 (List.mem_map_of_mem he)
        obtain ⟨ol, S, g1, g2, g3⟩ := hcols.col (e.1 - 1) (by omega)
        refine ⟨ol, S, g1, g2, (g3 row).2 ⟨hrow, ?_⟩, by simp, by simp, by simp, by simp⟩
        rw [show e.1 - 1 + 1 = e.1 by omega, ← hl1]
        exact List.mem_map_of_mem he) hli2
    rw [← hl1, k1, Option.map_some]
    refine ⟨_, L', li', rfl, ⟨rfl, rfl⟩, rfl, rfl, rfl, k2, k5, fun r => ?_, fun r => Or.inl rfl, ?_, ?_, ext, k6, by omega, ?_, ?_⟩
    · rw [if_neg (hno r)]
    · intro _ r _ g1 g2 g3
      exact absurd ⟨g1, g2, g3⟩ (hno r)
    · intro d hd hdc
      obtain ⟨ol, S, g1, g2, g3⟩ := hcols.col d hd
      by_cases hdk : d + 1 ∈ keys l1
      · obtain ⟨e, he, hed⟩ := List.mem_map.1 hdk
        have hed2 : d = e.1 - 1 := by omega
        obtain ⟨ol', S', m1, m2, m3, m4⟩ := k4 e he ol S (by rw [← hed2]; exact g1) g2
        refine ⟨ol, ol', S', g1, by rw [hed2]; exact m1, m2, ?_, fun x => ?_⟩
        · by_cases hi : ol.index = 0
          · exact Or.inl ⟨hi, m3 hi⟩
          · refine Or.inr (Or.inr ⟨hi, ?_⟩)
            have hm : row ∈ S := (g3 row).2 ⟨hrow, by rw [← hl1]; exact hdk⟩
            rw [g2.2.1]
            exact (List.length_pos_of_mem hm).ne'
        · rw [m4, g3]
          simp only [List.not_mem_nil, not_false_eq_true, and_true, or_false]
          tauto
      · refine ⟨ol, ol, S, g1, by rw [← g1]; exact k3 d hdk, g2, Or.inr (Or.inl rfl), fun x => ?_⟩
        rw [g3]
        simp only []
        constructor
        · rintro ⟨n1, n2⟩
          refine ⟨n1, ?_, n2⟩
          rintro rfl
          rw [← hl1] at n2
          exact hdk n2
        · exact fun n => ⟨n.1, n.2.2⟩
    · intro h
      rw [k9 h]
      simp
    · intro _ d hd
      exact hkr d (k8 d hd)
  · rw [if_neg h1, OL.read_spec hS0]
    simp only []
    rw [← hl1]
    have hokl : RowOk t q s.nco l1 := by rw [hl1]; exact hok row
    have honel : coef q l1 (c + 1) = 1 := by rw [hl1]; exact hone
    have hrep : List.replicate l1.length ([] : List ℕ) = l1.map fun _ => [] := by simp
    rw [hrep]
    obtain ⟨cc, k1, k2, k3, k4, k5, k6, k7, ext, k8, k9, k10, k11⟩ := clearRows_spec (row := row) (col0 := c + 1) fl.fr hokl S0
      ⟨s.rows, s.position, l1.map fun _ => [], l1.map fun _ => [], L⟩ (fun _ => []) (fun _ => []) hS0n hS0r
      (fun r hr => by simp only []; rw [hpl]; exact hS0r r hr)
      (fun r hr _ => ⟨((hmem0 r).1 hr).2, hok r⟩) rfl rfl
    rw [k1]
    simp only [List.nil_append] at k2 k3 k4 k5 k6 k7 k8 ⊢
    rw [k5, k6]
    -- the list of column c is only changed in its index
    have hcol' : ∀ d < s.nco, ∃ ol S, (s.column.set c { ol0 with index := ol0.num })[d]? = some ol ∧ Holds ol S ∧
        (∀ r, r ∈ S ↔ r ∉ s.elimRow ∧ d + 1 ∈ keys (rowOf s.rows r)) ∧ (d ≠ c → s.column[d]? = some ol) := by
      intro d hd
      by_cases hdc : d = c
      · subst hdc
        refine ⟨_, S0, List.getElem?_set_self (by rw [hcols.len]; exact hd), hS0, hmem0, fun h => absurd rfl h⟩
      · obtain ⟨ol, S, g1, g2, g3⟩ := hcols.col d hd
        exact ⟨ol, S, by rw [List.getElem?_set_ne (Ne.symm hdc)]; exact g1, g2, g3, fun _ => g1⟩
    -- new rows
    have hnw : ∀ r ∈ S0, r ≠ row → RowOk t q s.nco (nw t q (c + 1) l1 (rowOf s.rows r)) ∧
        (∀ d, coef q (nw t q (c + 1) l1 (rowOf s.rows r)) d = coef q (rowOf s.rows r) d - coef q (rowOf s.rows r) (c + 1) * coef q l1 d) ∧
        coef q (rowOf s.rows r) (c + 1) ≠ 0 := by
      intro r hr _
      have hk := ((hmem0 r).1 hr).2
      obtain ⟨n1, _, n3, _⟩ := nw_spec hokl (hok r) honel hk
      exact ⟨n1, n3, (coef_ne_zero_iff (hok r) _).2 hk⟩
    obtain ⟨cols', L', li', m1, m2, m3, m4, m5, ext', m6, m7, m8, m9⟩ := clearCols_spec fl (ls := ol0.num) (row := row) hnum l1
      (fun e => S0.filter fun r => r ≠ row ∧ e.1 ∉ keys (rowOf s.rows r))
      (fun e => S0.filter fun r => r ≠ row ∧ e.1 ∈ keys (rowOf s.rows r) ∧ e.1 ∉ keys (nw t q (c + 1) l1 (rowOf s.rows r)))
      (s.column.set c { ol0 with index := ol0.num }) cc.L li hk1 (fun d hd => (hkr d hd).1) (fun e he => by
        have hd := hkr e.1 (List.mem_map_of_mem he)
        obtain ⟨ol, S, g1, g2, g3, _⟩ := hcol' (e.1 - 1) (by omega)
        have hee : e.1 - 1 + 1 = e.1 := by omega
        rw [hee] at g3
        refine ⟨ol, S, g1, g2, (g3 row).2 ⟨hrow, ?_⟩, hS0.1.filter _, ?_, hS0.1.filter _, ?_⟩
        · rw [← hl1]
          exact List.mem_map_of_mem he
        · intro x hx
          simp only [List.mem_filter, decide_eq_true_eq] at hx
          exact ⟨(g3 x).2 ⟨((hmem0 x).1 hx.1).1, hx.2.2.1⟩, hx.2.1⟩
        · intro x hx hxS
          simp only [List.mem_filter, decide_eq_true_eq] at hx
          exact hx.2.2 ((g3 x).1 hxS).2) hli2
    rw [m1, Option.map_some]
    have hcond : ∀ r, (r ∈ S0 ∧ r ≠ row) ↔ (r ∉ s.elimRow ∧ r ≠ row ∧ c + 1 ∈ keys (rowOf s.rows r)) := by
      intro r
      rw [hmem0]
      tauto
    refine ⟨_, L', li', rfl, ⟨rfl, k2⟩, rfl, rfl, k3, by simpa using m2, m5, fun r => ?_, fun r => ?_, ?_, ?_, ext ++ ext', ?_, ?_, ?_, ?_⟩
    · simp only []
      rw [k4]
      simp only [hcond]
    · simp only []
      rw [k7, k4]
      by_cases hh : fl.fr = true ∧ r ∈ S0 ∧ r ≠ row ∧ nw t q (c + 1) l1 (rowOf s.rows r) = []
      · obtain ⟨g1, g2, g3⟩ := (hcond r).1 ⟨hh.2.1, hh.2.2.1⟩
        exact Or.inr ⟨hh.1, by rw [if_pos hh], by rw [if_pos ⟨hh.2.1, hh.2.2.1⟩]; exact hh.2.2.2, g1, g2, g3⟩
      · rw [if_neg hh]
        exact Or.inl rfl
    · intro hfr r hr g1 g2 g3
      simp only [] at hr ⊢
      rw [k4] at hr
      have hh := (hcond r).2 ⟨g1, g2, g3⟩
      rw [if_pos hh] at hr
      rw [k7, if_pos ⟨hfr, hh.1, hh.2, hr⟩]
    · intro d hd hdc
      obtain ⟨ol, S, g1, g2, g3, g4⟩ := hcol' d hd
      by_cases hdk : d + 1 ∈ keys l1
      · obtain ⟨e, he, hed⟩ := List.mem_map.1 hdk
        have hed2 : d = e.1 - 1 := by omega
        obtain ⟨ol', S', n1, n2, n3, n4⟩ := m4 e he ol S (by rw [← hed2]; exact g1) g2
        refine ⟨ol, ol', S', g4 hdc, by rw [hed2]; exact n1, n2, ?_, fun x => ?_⟩
        · by_cases hi : ol.index = 0
          · exact Or.inl ⟨hi, n3 hi⟩
          · refine Or.inr (Or.inr ⟨hi, ?_⟩)
            have hm : row ∈ S := (g3 row).2 ⟨hrow, by rw [← hl1]; exact hdk⟩
            rw [g2.2.1]
            exact (List.length_pos_of_mem hm).ne'
        · rw [n4]
          simp only [List.mem_filter, decide_eq_true_eq, hed]
          rw [k4, g3]
          by_cases hx : x ∈ S0 ∧ x ≠ row
          · obtain ⟨p1, p2, p3⟩ := hnw x hx.1 hx.2
            have hxa := ((hmem0 x).1 hx.1).1
            rw [if_pos hx]
            by_cases hk : d + 1 ∈ keys (rowOf s.rows x)
            · by_cases hk2 : d + 1 ∈ keys (nw t q (c + 1) l1 (rowOf s.rows x)) <;> simp [hk, hk2, hx.1, hx.2, hxa]
            · have hk2 : d + 1 ∈ keys (nw t q (c + 1) l1 (rowOf s.rows x)) := by
                rw [← coef_ne_zero_iff p1, p2, coef_of_notMem hk, zero_sub, neg_ne_zero]
                exact mul_ne_zero p3 ((coef_ne_zero_iff hokl _).2 hdk)
              simp [hk, hk2, hx.1, hx.2, hxa]
          · rw [if_neg hx]
            constructor
            · rintro (⟨⟨a1, a2⟩, a3, _⟩ | ⟨a1, a2, _⟩)
              · exact ⟨a1, a3, a2⟩
              · exact absurd ⟨a1, a2⟩ hx
            · rintro ⟨a1, a2, a3⟩
              exact Or.inl ⟨⟨a1, a3⟩, a2, fun h => hx ⟨h.1, h.2.1⟩⟩
      · refine ⟨ol, ol, S, g4 hdc, by rw [← g1]; exact m3 d hdk, g2, Or.inr (Or.inl rfl), fun x => ?_⟩
        rw [g3]
        simp only []
        rw [k4]
        by_cases hx : x ∈ S0 ∧ x ≠ row
        · obtain ⟨p1, p2, p3⟩ := hnw x hx.1 hx.2
          have hkk : d + 1 ∈ keys (nw t q (c + 1) l1 (rowOf s.rows x)) ↔ d + 1 ∈ keys (rowOf s.rows x) := by
            rw [← coef_ne_zero_iff p1, p2, coef_of_notMem (q := q) hdk, mul_zero, sub_zero, coef_ne_zero_iff (hok x)]
          rw [if_pos hx, hkk]
          simp [hx.2]
        · rw [if_neg hx]
          constructor
          · rintro ⟨n1, n2⟩
            refine ⟨n1, ?_, n2⟩
            rintro rfl
            rw [← hl1] at n2
            exact hdk n2
          · exact fun n => ⟨n.1, n.2.2⟩
    · rw [m6, k8, List.append_assoc]
    · rw [List.length_append]
      omega
    · intro h r hr
      rw [m9 h, List.append_nil] at hr
      exact hS0r r (k10 r hr)
    · intro h d hd
      rw [k11 h, List.nil_append] at hd
      exact hkr d (m8 d hd)

/-- `eliminate` and `free_space` -/
theorem elim_spec {s : St} {row c : ℕ} (hc : c < s.elimCol.length) (hrow : row < s.position.length)
    (hrk : s.elimRow.length < s.rows.length) (hcol : c < s.column.length) :
    ((eliminate s row (c + 1)).bind fun s => freeSpace s (c + 1)) = some { s with
      elimCol := s.elimCol.set c (some row)
      position := s.position.set row (some (c + 1))
      elimRow := s.elimRow ++ [row]
      column := s.column.set c (OL.new 0) } := by
  unfold eliminate
  rw [if_pos ⟨by omega, by simpa using hc, hrow, hrk⟩, Option.bind_some]
  unfold freeSpace
  rw [if_pos ⟨by omega, by simpa using hcol⟩]
  simp

set_option maxHeartbeats 800000 in
/-- normalize, clear the column, eliminate, free the column -/
theorem pivot_spec (X : Marith.XGcd) {t : T} {Ker : (ℕ → ZMod q) → Prop} {s : St} (fl : Flags) {row c : ℕ} (L li : List ℕ)
    (h : Inv t q Ker (some (c + 1)) s) (hrow : row ∉ s.elimRow) (hck : c + 1 ∈ keys (rowOf s.rows row))
    (hli : fl.M ≠ 0 → li.length = s.nco) :
    ∃ s' L' li', pivot X t q fl s row (c + 1) L li = some (s', L', li') ∧ Inv t q Ker none s' ∧ Same s s' ∧
      s'.elimRow = s.elimRow ++ [row] ∧ li'.length = li.length ∧ (fl.fr = true → NE s → NE s') ∧
      ∃ ext, L' = L ++ ext ∧ ext.length ≤ s.rows.length + s.nco ∧ (fl.fc = false → ∀ r ∈ ext, r < s.rows.length) ∧
        (fl.fr = false → ∀ d ∈ ext, 1 ≤ d ∧ d ≤ s.nco) := by
  have hrm := lt_of_mem_keys hck
  have hcn : c < s.nco := by have := ((h.core.rowOk row).range _ hck).2; omega
  obtain ⟨l, u, hn1, hn2, hn3, hn4, hn5, hn6⟩ := normalize_spec X (h.core.rowOk row) hck
  obtain ⟨s1, hs1⟩ : ∃ s1 : St, s1 = { s with rows := s.rows.set row l } := ⟨_, rfl⟩
  have hrow1 : ∀ r, rowOf s1.rows r = if r = row then l else rowOf s.rows r := by
    intro r
    rw [hs1]
    exact rowOf_set hrm l r
  have hk1 : ∀ r d, d ∈ keys (rowOf s1.rows r) ↔ d ∈ keys (rowOf s.rows r) := by
    intro r d
    rw [hrow1]
    split_ifs with e
    · rw [hn3, e]
    · rfl
  have hcols1 : Cols s1 := by
    refine ⟨by rw [hs1]; exact h.cols.len, fun d hd => ?_⟩
    obtain ⟨ol, S, g1, g2, g3⟩ := h.cols.col d (by rw [hs1] at hd; exact hd)
    refine ⟨ol, S, by rw [hs1]; exact g1, g2, fun r => ?_⟩
    rw [g3, hk1, hs1]
  have hok1 : ∀ r, RowOk t q s1.nco (rowOf s1.rows r) := by
    intro r
    rw [hrow1, hs1]
    split_ifs
    · exact hn2
    · exact h.core.rowOk r
  have hpl1 : s1.position.length = s1.rows.length := by rw [hs1]; simpa using h.core.npos
  obtain ⟨s2, L', li', k1, k2, k3, k4, k5, k6, k7, k8, k9, k10, k11, ext, k12, k13, k14, k15⟩ := clearCol_spec (t := t) fl (row := row) (c := c) L li hcols1
    (by rw [hs1]; exact hrow) hok1 (by rw [hrow1, if_pos rfl]; exact hn6) hpl1 (by rw [hs1]; exact hli)
  have e1 : s1.nco = s.nco := by rw [hs1]
  have e2 : s1.rows.length = s.rows.length := by rw [hs1]; simp
  have e3 : s1.elimRow = s.elimRow := by rw [hs1]
  have e4 : s1.elimCol = s.elimCol := by rw [hs1]
  have e5 : s1.position = s.position := by rw [hs1]
  have e6 : s1.column = s.column := by rw [hs1]
  have hsame : Same s s2 := ⟨k2.1.trans e1, k2.2.trans e2⟩
  rw [e3] at k3 k8 k9 k10 k11
  rw [e4] at k4
  rw [e5] at k5 k9
  rw [e6] at k6 k11
  rw [e1] at k11 k13 k15
  rw [e2] at k13 k14
  have hcle : c < s2.elimCol.length := by rw [k4, h.core.ncol]; exact hcn
  have hrp : row < s2.position.length := by rw [k5, h.core.npos]; exact hrm
  have hcl : c < s2.column.length := by rw [k6, h.cols.len]; exact hcn
  have hrk : s2.elimRow.length < s2.rows.length := by rw [k3, hsame.2]; exact h.core.rank_lt hrow hrm
  have hel := elim_spec hcle hrp hrk hcl
  obtain ⟨s3, hs3⟩ : ∃ s3 : St, s3 = { s2 with
      elimCol := s2.elimCol.set c (some row)
      position := s2.position.set row (some (c + 1))
      elimRow := s2.elimRow ++ [row]
      column := s2.column.set c (OL.new 0) } := ⟨_, rfl⟩
  rw [← hs3] at hel
  have hr3 : s3.rows = s2.rows := by rw [hs3]
  have her3 : s3.elimRow = s.elimRow ++ [row] := by rw [hs3]; simp only [k3]
  have hp3 : ∀ r, at' s3.position r = if r = row then some (c + 1) else at' s2.position r := by
    intro r
    rw [hs3]
    exact at_set hrp _ _
  have hrow2 : rowOf s2.rows row = l := by rw [k8, if_neg (fun h => h.2.1 rfl), hrow1, if_pos rfl]
  have hcond1 : ∀ r, c + 1 ∈ keys (rowOf s1.rows r) ↔ c + 1 ∈ keys (rowOf s.rows r) := fun r => hk1 r _
  have hokl : RowOk t q s.nco l := hn2
  have hrow2' : ∀ r, r ≠ row → rowOf s2.rows r = if r ∉ s.elimRow ∧ c + 1 ∈ keys (rowOf s.rows r)
      then nw t q (c + 1) l (rowOf s.rows r) else rowOf s.rows r := by
    intro r hr
    rw [k8, hrow1 row, if_pos rfl, hrow1 r, if_neg hr]
    by_cases g : r ∉ s.elimRow ∧ c + 1 ∈ keys (rowOf s.rows r)
    · rw [if_pos g, if_pos ⟨g.1, hr, g.2⟩]
    · rw [if_neg g, if_neg (fun g' => g ⟨g'.1, g'.2.2⟩)]
  have hok2 : ∀ r, RowOk t q s.nco (rowOf s2.rows r) := by
    intro r
    by_cases e : r = row
    · rw [e, hrow2]; exact hokl
    · rw [hrow2' r e]
      split_ifs with g
      · exact (nw_spec hokl (h.core.rowOk r) hn6 g.2).1
      · exact h.core.rowOk r
  have hcore : Core t q Ker s3 := by
    refine h.core.pivot (s' := s3) hrow hck ⟨by rw [hs3]; exact hsame.1, by rw [hr3]; exact hsame.2⟩ (by rw [hs3]; simpa using k5) (by rw [hs3]; simp [k4])
      (by rw [hr3]; exact hok2) hn4 (by rw [hr3, hrow2]; exact hn5) (by rw [hr3, hrow2]; exact hn6) ?_ ?_ her3 ?_ ?_ ?_
    · intro r hr
      have hne : r ≠ row := fun e => hrow (e ▸ hr)
      rw [hr3, hrow2' r hne, if_neg (fun g => g.1 hr)]
    · intro r hr hne
      rw [hr3, hrow2, hrow2' r hne]
      by_cases g : r ∉ s.elimRow ∧ c + 1 ∈ keys (rowOf s.rows r)
      · rw [if_pos g]
        obtain ⟨_, n2, _, n4⟩ := nw_spec hokl (h.core.rowOk r) hn6 g.2
        exact ⟨n4, _, n2⟩
      · rw [if_neg g]
        exact ⟨fun g' => g ⟨hr, g'⟩, 0, by simp⟩
    · intro r hr
      have hne : r ≠ row := fun e => hrow (e ▸ hr)
      rw [hp3, if_neg hne]
      rcases k9 r with g | g
      · exact g
      · exact absurd hr g.2.2.2.1
    · rw [hp3, if_pos rfl]
    · intro d
      rw [hs3]
      simp only []
      rw [at_set hcle, k4]
  refine ⟨s3, L', li', ?_, ⟨hcore, ?_, ?_, ?_⟩, ⟨by rw [hs3]; exact hsame.1, by rw [hr3]; exact hsame.2⟩, her3, k7, ?_, ext, k12, k13, k14, k15⟩
  · unfold pivot
    rw [rowOf_get hrm, Option.bind_some, hn1]
    simp only []
    rw [← hs1, k1]
    simp only []
    rw [hel]
    rfl
  · have hn3' : s3.nco = s.nco := by rw [hs3]; exact hsame.1
    have hc3 : s3.column = s2.column.set c (OL.new 0) := by rw [hs3]
    refine ⟨by rw [hc3, hn3', List.length_set, k6, h.cols.len], fun d hd => ?_⟩
    rw [hn3'] at hd
    rw [hc3]
    by_cases e : d = c
    · subst e
      refine ⟨OL.new 0, [], List.getElem?_set_self hcl, OL.new_holds 0, fun r => ?_⟩
      simp only [List.not_mem_nil, false_iff, not_and]
      intro hr
      exact hcore.act row (by rw [her3]; simp) r hr d (by rw [hp3, if_pos rfl])
    · obtain ⟨ol, ol', S', _, g2, g3, _, g5⟩ := k11 d hd e
      refine ⟨ol', S', by rw [List.getElem?_set_ne (Ne.symm e)]; exact g2, g3, fun r => ?_⟩
      rw [g5, her3, hr3]
      simp only [List.mem_append, List.mem_singleton, not_or]
      exact ⟨fun g => ⟨⟨g.1, g.2.1⟩, g.2.2⟩, fun g => ⟨g.1.1, g.1.2, g.2⟩⟩
  · intro r hr
    rw [her3, List.mem_append, List.mem_singleton] at hr
    push Not at hr
    rw [hp3, if_neg hr.2, hr3]
    rcases k9 r with g | g
    · rw [g]
      rcases h.actPos r hr.1 with g1 | ⟨g1, g2⟩
      · exact Or.inl g1
      · refine Or.inr ⟨g1, ?_⟩
        rw [hrow2' r hr.2, if_neg, g2]
        rw [g2]
        simp
    · exact Or.inr ⟨g.2.1, g.2.2.1⟩
  · intro d ol _ hd
    have hc3 : s3.column = s2.column.set c (OL.new 0) := by rw [hs3]
    rw [hc3] at hd
    by_cases e : d = c
    · subst e
      rw [List.getElem?_set_self hcl] at hd
      simp only [Option.some.injEq] at hd
      subst hd
      exact Or.inl rfl
    · rw [List.getElem?_set_ne (Ne.symm e)] at hd
      have hdl : d < s.nco := by
        have := (List.getElem?_eq_some_iff.1 hd).1
        rw [k6, h.cols.len] at this
        exact this
      obtain ⟨ol0, ol', S', g1, g2, g3, g4, g5⟩ := k11 d hdl e
      rw [g2] at hd
      simp only [Option.some.injEq] at hd
      subst hd
      rcases h.idx d ol0 (by simpa using Ne.symm e) g1 with hi | hi
      · rcases g4 with g | g | g
        · exact Or.inl g.2
        · rw [g]; exact Or.inl hi
        · exact absurd hi g.1
      · rcases g4 with g | g | g
        · exact Or.inl g.2
        · rw [g]; exact Or.inr hi
        · exact absurd hi g.2
  · intro hfr hne r hr hra hrp
    rw [her3, List.mem_append, List.mem_singleton] at hra
    push Not at hra
    rw [hp3, if_neg hra.2] at hrp
    rw [hr3] at hr ⊢
    intro hempty
    by_cases g : c + 1 ∈ keys (rowOf s.rows r)
    · have := k10 hfr r hempty hra.1 hra.2 ((hcond1 r).2 g)
      rw [this] at hrp
      cases hrp
    · rw [hrow2' r hra.2, if_neg (fun g' => g g'.2)] at hempty
      refine hne r (by rw [← hsame.2]; exact hr) hra.1 ?_ hempty
      rcases k9 r with g' | g'
      · rw [← g']; exact hrp
      · rw [g'.2.1] at hrp
        cases hrp

end Eclib.Elim
