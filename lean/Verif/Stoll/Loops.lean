import Verif.Stoll.Filters
import Mathlib.Tactic.Linarith

/-!
# The loops of the search
-/

namespace Eclib.Stoll

open Marith (isqrt)

/-! ## indices -/

theorem wFloor_eq (a : ℤ) {b : ℤ} (hb : 0 < b) : wFloor a b = a / b := by
  unfold wFloor
  split_ifs with h
  · rw [Int.tdiv_eq_ediv_of_nonneg (by omega)]
    have h1 := Int.mul_ediv_add_emod (-a - 1) b
    have h2 := Int.emod_nonneg (-a - 1) hb.ne'
    have h3 := Int.emod_lt_of_pos (-a - 1) hb
    symm
    rw [Int.ediv_eq_iff_of_pos hb]
    constructor <;> nlinarith
  · rw [Int.tdiv_eq_ediv_of_nonneg (by omega)]

theorem wCeil_spec (a : ℤ) {b : ℤ} (hb : 0 < b) : a ≤ b * wCeil a b ∧ b * wCeil a b < a + b := by
  unfold wCeil
  split_ifs with h
  · rw [Int.tdiv_eq_ediv_of_nonneg (by omega)]
    have h1 := Int.mul_ediv_add_emod (-a) b
    have h2 := Int.emod_nonneg (-a) hb.ne'
    have h3 := Int.emod_lt_of_pos (-a) hb
    constructor <;> nlinarith
  · rw [Int.tdiv_eq_ediv_of_nonneg (by omega)]
    have h1 := Int.mul_ediv_add_emod (a - 1) b
    have h2 := Int.emod_nonneg (a - 1) hb.ne'
    have h3 := Int.emod_lt_of_pos (a - 1) hb
    constructor <;> nlinarith

theorem ipIdx_eq (i : ℤ) {p : ℕ} (hp : 0 < p) : ipIdx i p = (i % p).toNat := by
  have hp' : (0 : ℤ) < p := by exact_mod_cast hp
  have h := Arith.posmod_eq_emod i p hp'
  unfold ipIdx
  unfold Arith.posmod at h
  simp only at h
  have h0 := Int.emod_nonneg i hp'.ne'
  by_cases hi : i < 0
  · rw [if_pos hi]
    have hle : i.tmod p ≤ 0 := by
      have e : i = -(-i) := by ring
      have := Int.tmod_nonneg (p : ℤ) (show 0 ≤ -i by omega)
      rw [e, Int.neg_tmod]
      omega
    split_ifs at h ⊢ <;> omega
  · rw [if_neg hi, Int.tmod_eq_emod_of_nonneg (by omega)]

theorem emod_of {n k r q : ℤ} (h : n = k * q + r) (h0 : 0 ≤ r) (h1 : r < k) : n % k = r := by
  rw [h, add_comm, Int.add_mul_emod_self_left]
  exact Int.emod_eq_of_lt h0 h1

theorem flatten_range (kp m : ℕ) :
    (List.replicate m (List.range kp)).flatten = (List.range (m * kp)).map fun t => t % kp := by
  induction m with
  | zero => simp
  | succ m ih =>
    rw [List.replicate_succ, List.flatten_cons, ih, show (m + 1) * kp = kp + m * kp by ring, List.range_add, List.map_append,
      List.map_map]
    congr 1
    · conv_lhs => rw [← List.map_id (List.range kp)]
      exact List.map_congr_left fun t ht => (Nat.mod_eq_of_lt (List.mem_range.mp ht)).symm
    · exact List.map_congr_left fun t _ => by simp

theorem idx_eq {kp : ℕ} (hkp : 0 < kp) {wl wh : ℤ} (h : wl ≤ wh) :
    idx kp wl wh = (List.range (wh - wl).toNat).map fun t : ℕ => ((wl + t) % kp).toNat := by
  have hk : (0 : ℤ) < kp := by exact_mod_cast hkp
  unfold idx
  simp only
  rw [wFloor_eq _ hk]
  obtain ⟨c1, c2⟩ := wCeil_spec wl hk
  obtain ⟨pl, hpl⟩ : ∃ x, wCeil wl kp = x := ⟨_, rfl⟩
  rw [hpl] at c1 c2 ⊢
  have d1 := Int.mul_ediv_add_emod wh kp
  have d2 := Int.emod_nonneg wh hk.ne'
  have d3 := Int.emod_lt_of_pos wh hk
  obtain ⟨ph, hph⟩ : ∃ x, wh / kp = x := ⟨_, rfl⟩
  obtain ⟨r, hr⟩ : ∃ x, wh % kp = x := ⟨_, rfl⟩
  rw [hph, hr] at d1
  rw [hr] at d2 d3
  rw [hph]
  by_cases hlt : ph < pl
  · rw [if_pos hlt]
    refine List.map_congr_left fun t ht => ?_
    have ht' := List.mem_range.mp ht
    have h1 : (kp : ℤ) * ph ≤ kp * (pl - 1) := mul_le_mul_of_nonneg_left (by omega) hk.le
    have h2 : (kp : ℤ) * (pl - 1) = kp * pl - kp := by ring
    rw [emod_of (r := wl + t - kp * ph) (q := ph) (by ring) (by omega) (by omega)]
    omega
  · rw [if_neg hlt]
    have hm : (kp : ℤ) * pl ≤ kp * ph := mul_le_mul_of_nonneg_left (by omega) hk.le
    obtain ⟨j, hj⟩ : ∃ j : ℕ, (j : ℤ) = kp * pl - wl := ⟨(kp * pl - wl).toNat, by omega⟩
    obtain ⟨m, hm'⟩ : ∃ m : ℕ, (m : ℤ) = ph - pl := ⟨(ph - pl).toNat, by omega⟩
    obtain ⟨r', hr'⟩ : ∃ m : ℕ, (m : ℤ) = r := ⟨r.toNat, by omega⟩
    have e1 : (kp * pl - wl).toNat = j := by omega
    have e2 : (ph - pl).toNat = m := by omega
    have e3 : (wh - kp * ph).toNat = r' := by omega
    have e4 : (wh - wl).toNat = j + m * kp + r' := by
      have : ((m * kp : ℕ) : ℤ) = kp * ph - kp * pl := by push_cast; rw [hm']; ring
      omega
    rw [e1, e2, e3, e4, flatten_range kp m, List.range_add, List.range_add]
    simp only [List.map_append, List.map_map]
    congr 1
    · congr 1
      · refine List.map_congr_left fun t ht => ?_
        have ht' := List.mem_range.mp ht
        have : (wl + t) % kp = kp - j + t := emod_of (q := pl - 1) (by rw [hj]; ring) (by omega) (by omega)
        rw [this]
        omega
      · refine List.map_congr_left fun t ht => ?_
        simp only [Function.comp]
        have : (wl + (j + t : ℕ)) % kp = ((t % kp : ℕ) : ℤ) := by
          have k := Nat.div_add_mod t kp
          have k' : (kp : ℤ) * (t / kp : ℕ) + (t % kp : ℕ) = t := by exact_mod_cast k
          refine emod_of (q := pl + (t / kp : ℕ)) ?_ (by positivity) (by exact_mod_cast Nat.mod_lt _ hkp)
          push_cast at k' ⊢
          rw [hj, mul_add]
          linarith
        rw [this, Int.toNat_natCast]
    · conv_lhs => rw [← List.map_id (List.range r')]
      refine List.map_congr_left fun t ht => ?_
      have ht' := List.mem_range.mp ht
      simp only [Function.comp, id]
      have : (wl + (j + m * kp + t : ℕ)) % kp = t := by
        refine emod_of (q := ph) ?_ (by positivity) (by omega)
        push_cast
        rw [hj, hm']
        ring
      rw [this]
      simp

/-! ## extensions of the list of points -/

/-- `st'` has the points of `st`, further points satisfying `V`, and (unless the search was stopped) all points with
coordinates satisfying `T`; it is stopped only by a call of `process` -/
structure Ext (f : Poly) (V : ℤ × ℤ × ℤ → Prop) (T : ℤ → ℤ → Prop) (st st' : St) : Prop where
  sub : ∀ q ∈ st.pts, q ∈ st'.pts
  new : ∀ q ∈ st'.pts, q ∈ st.pts ∨ V q
  halt : st'.halt = false → st.halt = false
  all : st'.halt = false → ∀ a b, T a b → ∃ y, (a, y, b) ∈ st'.pts
  keep : (∀ l, f.stop l = false) → st.halt = false → st'.halt = false

theorem Ext.refl {f : Poly} {V : ℤ × ℤ × ℤ → Prop} {T : ℤ → ℤ → Prop} (st : St) (h : st.halt = false → ∀ a b, ¬ T a b) : Ext f V T st st :=
  ⟨fun _ => id, fun _ => Or.inl, id, fun h0 a b ht => absurd ht (h h0 a b), fun _ => id⟩

theorem Ext.mono {f : Poly} {V V' : ℤ × ℤ × ℤ → Prop} {T T' : ℤ → ℤ → Prop} {st st' : St} (h : Ext f V T st st') (hV : ∀ q, V q → V' q)
    (hT : ∀ a b, T' a b → T a b) : Ext f V' T' st st' :=
  ⟨h.sub, fun q hq => (h.new q hq).imp_right (hV q), h.halt, fun h0 a b ht => h.all h0 a b (hT a b ht), h.keep⟩

theorem Ext.trans {f : Poly} {V : ℤ × ℤ × ℤ → Prop} {T1 T2 : ℤ → ℤ → Prop} {s1 s2 s3 : St} (h : Ext f V T1 s1 s2) (h' : Ext f V T2 s2 s3) :
    Ext f V (fun a b => T1 a b ∨ T2 a b) s1 s3 :=
  ⟨fun q hq => h'.sub q (h.sub q hq), fun q hq => (h'.new q hq).elim (h.new q) Or.inr, fun h0 => h.halt (h'.halt h0),
    fun h0 a b ht => ht.elim (fun t => (h.all (h'.halt h0) a b t).imp fun _ k => h'.sub _ k) (h'.all h0 a b),
    fun k h0 => h'.keep k (h.keep k h0)⟩

theorem Ext.fold {f : Poly} {α : Type*} {V : ℤ × ℤ × ℤ → Prop} {T : α → ℤ → ℤ → Prop} {step : St → α → St} (l : List α)
    (h : ∀ x ∈ l, ∀ st, Ext f V (T x) st (step st x)) (st : St) :
    Ext f V (fun a b => ∃ x ∈ l, T x a b) st (l.foldl step st) := by
  induction l generalizing st with
  | nil => exact Ext.refl st (by simp)
  | cons x l ih =>
    rw [List.foldl_cons]
    refine ((h x (by simp) st).trans (ih (fun y hy => h y (by simp [hy])) _)).mono (fun _ => id) ?_
    rintro a b ⟨y, hy, ht⟩
    rcases List.mem_cons.mp hy with rfl | hy
    · exact Or.inl ht
    · exact Or.inr ⟨y, hy, ht⟩

/-! ## one word -/

/-- the points that may be found with the denominator `b` and bits in `B` -/
def Val (f : Poly) (b : ℕ) (odd : Bool) (B : ℤ → Prop) (q : ℤ × ℤ × ℤ) : Prop :=
  ∃ n, B n ∧ q.1 = num odd n ∧ q.2.2 = b ∧ IsCoprime q.1 (b : ℤ) ∧ q.2.1 ^ 2 = fff f q.1 b

/-- the points to be found with the denominator `b` and bits in `B` -/
def Tgt (f : Poly) (b : ℕ) (odd : Bool) (B : ℤ → Prop) (a b' : ℤ) : Prop :=
  b' = b ∧ ∃ n, B n ∧ a = num odd n ∧ IsCoprime a (b : ℤ) ∧ (∃ y, y ^ 2 = F f.c f.deg a b) ∧ ∃ y, y ^ 2 = fff f a b

theorem tryBit_ext (f : Poly) (b : ℕ) (nums : W) (i : ℤ) (odd : Bool) (st : St) (j : ℕ) :
    Ext f (Val f b odd fun n => n = 64 * i + j ∧ nums.getLsbD j = true)
      (Tgt f b odd fun n => n = 64 * i + j ∧ nums.getLsbD j = true) st (tryBit f b nums i odd st j) := by
  unfold tryBit
  by_cases hh : st.halt = true
  · rw [if_pos hh]; exact Ext.refl st (by simp [hh])
  rw [if_neg hh]
  have ha : (if odd = true then 2 * (i * 64) + 1 + 2 * (j : ℤ) else i * 64 + j) = num odd (64 * i + j) := by
    unfold num; split_ifs <;> ring
  simp only [ha]
  have hcop : Arith.gcd (num odd (64 * i + j)) b = 1 ↔ IsCoprime (num odd (64 * i + j)) (b : ℤ) := by
    rw [Arith.gcd_eq, Int.isCoprime_iff_gcd_eq_one]; norm_cast
  by_cases h1 : nums.getLsbD j = true ∧ Arith.gcd (num odd (64 * i + j)) b = 1
  swap
  · rw [if_neg h1]
    refine Ext.refl st ?_
    rintro - a b' ⟨-, n, ⟨rfl, hb⟩, rfl, hc, -⟩
    exact h1 ⟨hb, hcop.mpr hc⟩
  rw [if_pos h1]
  by_cases h2 : (isqrt (fff f (num odd (64 * i + j)) b)).1 = true
  swap
  · rw [if_neg h2]
    refine Ext.refl st ?_
    rintro - a b' ⟨-, n, ⟨rfl, hb⟩, rfl, hc, -, y, hy⟩
    exact h2 ((Marith.Props.C12_isqrt _).mpr ⟨y, hy.symm⟩)
  rw [if_pos h2]
  refine ⟨fun q hq => List.mem_cons_of_mem _ hq, fun q hq => ?_, fun _ => by simpa using hh, ?_, fun k _ => k _⟩
  · rcases List.mem_cons.mp hq with rfl | hq
    · exact Or.inr ⟨64 * i + j, ⟨rfl, h1.1⟩, rfl, rfl, hcop.mp h1.2, by rw [sq]; exact (Marith.isqrt_sound _ h2).symm⟩
    · exact Or.inl hq
  · rintro - a b' ⟨rfl, n, ⟨rfl, hb⟩, rfl, hc, -⟩
    exact ⟨_, List.mem_cons_self⟩

theorem and_fold {α : Type*} (g : α → W) (l : List α) (x : W) (j : ℕ) :
    (l.foldl (fun n p => n &&& g p) x).getLsbD j = true ↔ x.getLsbD j = true ∧ ∀ p ∈ l, (g p).getLsbD j = true := by
  induction l generalizing x with
  | nil => simp
  | cons p l ih =>
    rw [List.foldl_cons, ih, BitVec.getLsbD_and, Bool.and_eq_true, List.forall_mem_cons, and_assoc]

theorem checkPoint_ext {f : Poly} (h2 : 2 ≤ f.deg) {ps2 : List ℕ} (hps : ∀ p ∈ ps2, p ∈ primes) (b : ℕ) (odd : Bool) (st : St)
    (i : ℤ) (nums : W) {B : ℤ → Prop} (hB : ∀ j < 64, nums.getLsbD j = true → B (64 * i + j)) :
    Ext f (Val f b odd B) (Tgt f b odd fun n => ∃ j < 64, n = 64 * i + (j : ℕ) ∧ nums.getLsbD j = true) st
      (checkPoint f ps2 b odd st i nums) := by
  unfold checkPoint
  simp only
  obtain ⟨n2, hn2⟩ : ∃ x, ps2.foldl (fun n p => n &&& (row f.c f.deg p (b % p) odd).getD (ipIdx i p) 0) nums = x := ⟨_, rfl⟩
  rw [hn2]
  have key : ∀ j, n2.getLsbD j = true ↔ nums.getLsbD j = true ∧
      ∀ p ∈ ps2, ((row f.c f.deg p (b % p) odd).getD (ipIdx i p) 0).getLsbD j = true := by
    intro j; rw [← hn2]; exact and_fold _ _ _ _
  have := Ext.fold (f := f) (V := Val f b odd B) (T := fun j => Tgt f b odd fun n => n = 64 * i + (j : ℕ) ∧ n2.getLsbD j = true)
    (step := tryBit f b n2 i odd) (List.range 64) (fun j hj st => (tryBit_ext f b n2 i odd st j).mono ?_ (fun _ _ => id)) st
  · refine this.mono (fun _ => id) ?_
    rintro a b' ⟨rfl, n, ⟨j, hj, rfl, hb⟩, rfl, hc, ⟨y, hy⟩, hf⟩
    refine ⟨j, List.mem_range.mpr hj, rfl, _, ⟨rfl, (key j).mpr ⟨hb, fun p hp => ?_⟩⟩, rfl, hc, ⟨y, hy⟩, hf⟩
    have hpp := hps p hp
    rw [ipIdx_eq i (primes_ok p hpp).1.pos]
    exact row_pass h2 hpp odd i hj hc hy
  · rintro q ⟨n, ⟨rfl, hb⟩, h⟩
    exact ⟨_, hB j (List.mem_range.mp hj) ((key j).mp hb).1, h⟩

/-! ## several words -/

theorem stage1 {f : Poly} {b : ℕ} {odd : Bool} {wl wh : ℤ} (hw : wl ≤ wh) (ps1 : List ℕ) (hps : ∀ p ∈ ps1, p ∈ primes)
    (surv : List W) (hlen : surv.length = (wh - wl).toNat) :
    (ps1.foldl (fun s p => List.zipWith (fun x k => x &&& (row f.c f.deg p (b % p) odd).getD k 0) s (idx p wl wh)) surv).length =
      surv.length ∧
    ∀ t < surv.length, ∀ j,
      (((ps1.foldl (fun s p => List.zipWith (fun x k => x &&& (row f.c f.deg p (b % p) odd).getD k 0) s (idx p wl wh))
        surv).getD t 0).getLsbD j = true ↔ (surv.getD t 0).getLsbD j = true ∧
          ∀ p ∈ ps1, ((row f.c f.deg p (b % p) odd).getD ((wl + t) % p).toNat 0).getLsbD j = true) := by
  induction ps1 generalizing surv with
  | nil => simp
  | cons p l ih =>
    rw [List.foldl_cons]
    have hp := primes_ok p (hps p (by simp))
    rw [idx_eq hp.1.pos hw]
    have hl : (List.zipWith (fun x k => x &&& (row f.c f.deg p (b % p) odd).getD k 0) surv
        ((List.range (wh - wl).toNat).map fun t : ℕ => ((wl + t) % p).toNat)).length = surv.length := by
      rw [List.length_zipWith, List.length_map, List.length_range, hlen, min_self]
    obtain ⟨h1, h2⟩ := ih (fun p hp => hps p (by simp [hp])) _ (hl.trans hlen)
    refine ⟨h1.trans hl, fun t ht j => ?_⟩
    rw [h2 t (by rw [hl]; exact ht) j, List.forall_mem_cons, ← and_assoc]
    refine and_congr_left' ?_
    have ht2 : t < (wh - wl).toNat := by omega
    rw [List.getD_eq_getElem?_getD, List.getElem?_zipWith]
    simp only [List.getElem?_map, List.getElem?_range ht2, Option.map_some, List.getElem?_eq_getElem ht, Option.getD_some]
    rw [BitVec.getLsbD_and, Bool.and_eq_true, List.getD_eq_getElem _ _ ht]

theorem sift0_ext {f : Poly} (h2 : 2 ≤ f.deg) {ps1 ps2 : List ℕ} (hps1 : ∀ p ∈ ps1, p ∈ primes) (hps : ∀ p ∈ ps2, p ∈ primes)
    (b : ℕ) (odd : Bool) {wl wh : ℤ} (hw : wl ≤ wh) (surv : List W) (hlen : surv.length = (wh - wl).toNat) (st : St)
    {B : ℤ → Prop} (hB : ∀ t < surv.length, ∀ j < 64, (surv.getD t 0).getLsbD j = true → B (64 * (wl + t) + j)) :
    Ext f (Val f b odd B) (Tgt f b odd fun n => ∃ t < surv.length, ∃ j < 64, n = 64 * (wl + (t : ℕ)) + (j : ℕ) ∧
      (surv.getD t 0).getLsbD j = true) st (sift0 f ps1 ps2 b odd wl wh surv st) := by
  unfold sift0
  simp only
  obtain ⟨h3, h4⟩ := stage1 (f := f) (b := b) (odd := odd) hw ps1 hps1 surv hlen
  generalize ps1.foldl (fun s p => List.zipWith (fun x k => x &&& (row f.c f.deg p (b % p) odd).getD k 0) s (idx p wl wh))
    surv = s at *
  have := Ext.fold (f := f) (V := Val f b odd B)
    (T := fun x : W × ℕ => Tgt f b odd fun n => ∃ j < 64, n = 64 * (wl + (x.2 : ℕ)) + (j : ℕ) ∧ x.1.getLsbD j = true)
    (step := fun st (x : W × ℕ) =>
      if st.halt = true then st else if x.1 = 0 then st else checkPoint f ps2 b odd st (wl + x.2) x.1) s.zipIdx ?_ st
  · refine this.mono (fun _ => id) ?_
    rintro a b' ⟨rfl, n, ⟨t, ht, j, hj, rfl, hb⟩, rfl, hc, ⟨y, hy⟩, hf⟩
    refine ⟨(s.getD t 0, t), ?_, rfl, _, ⟨j, hj, rfl, (h4 t ht j).mpr ⟨hb, fun p hp => row_pass h2 (hps1 p hp) odd _ hj hc hy⟩⟩,
      rfl, hc, ⟨y, hy⟩, hf⟩
    rw [List.mem_zipIdx_iff_getElem?, List.getElem?_eq_getElem (by omega), List.getD_eq_getElem _ _ (by omega)]
  · rintro ⟨x, t⟩ hx st
    rw [List.mem_zipIdx_iff_getElem?] at hx
    have ht : t < s.length := by
      by_contra h
      simp only at hx
      rw [List.getElem?_eq_none (by omega)] at hx
      cases hx
    have hxs : s.getD t 0 = x := by rw [List.getD_eq_getElem?_getD, hx]; rfl
    simp only
    by_cases hh : st.halt = true
    · rw [if_pos hh]; exact Ext.refl st (by simp [hh])
    rw [if_neg hh]
    by_cases h0 : x = 0
    · rw [if_pos h0]
      refine Ext.refl st ?_
      rintro - a b' ⟨-, n, ⟨j, -, -, hb⟩, -⟩
      rw [h0] at hb
      simp at hb
    rw [if_neg h0]
    refine checkPoint_ext h2 hps b odd st _ _ fun j hj hb => ?_
    rw [← hxs] at hb
    exact hB t (by omega) j hj ((h4 t (by omega) j).mp hb).1

end Eclib.Stoll
