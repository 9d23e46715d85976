import Mathlib.Data.Fin.VecNotation
import Mathlib.Algebra.BigOperators.Fin
import Mathlib.Algebra.BigOperators.Group.Finset.Basic

/-!
# Integral LLL reduction (libsrc/illl.cc)

`lll_reduce` of libsrc/illl.cc, the integral LLL algorithm with respect to the diagonal form whose
coefficients are in `b[0]`.

Simplifications:
* a `vec_m` is a function `Fin m → ℤ`; all vectors of the array have the same dimension `m`
  (`sdot` and `-=` need this in the code as well);
* the C++ vectors `b`, `d` and `lambda` are functions on all of `ℕ`; the index ranges which keep
  every access inside the vectors are checked once at the entry of each function and the outcome
  is `none` when they fail.  `lambda[i-1][j-1]` is `lam i j`;
* division by zero is `none` as well;
* the recursion of `step3` and the `while` loop carry fuel; it is proved that it can be chosen;
* `DEBUG_LLL`/`TRACE_LLL` output and the function `show` are omitted.
-/

namespace Eclib.Lll

open Finset

/-- The variables of `lll_reduce`: the vectors `b[0..n]`, `lambda` and `d` (illl.cc:151-156). -/
structure St (m : ℕ) where
  b : ℕ → Fin m → ℤ
  lam : ℕ → ℕ → ℤ
  d : ℕ → ℤ

variable {m : ℕ}

/-- Assignment to `lambda[i-1][j-1]`. -/
def setL (lam : ℕ → ℕ → ℤ) (i j : ℕ) (v : ℤ) : ℕ → ℕ → ℤ :=
  fun r c => if r = i ∧ c = j then v else lam r c

/-- `sdot(b,i,j)` (illl.cc:29-37). -/
def sdot (b : ℕ → Fin m → ℤ) (i j : ℕ) : ℤ := ∑ k, b 0 k * b i k * b j k

/-- `nearest(c,a,b)` (eclib/marith.h:66-67). -/
def nearest (a b : ℤ) : ℤ :=
  let a0 := a.fmod b
  let c := (a - a0).fdiv b
  if 2 * a0 > b then c + 1 else c

/-- The loop of illl.cc:80, `for(i=1; i<l; i++) lambda[k-1][i-1]-=q*lambda[l-1][i-1]`. -/
def rediLoop (k l : ℕ) (q : ℤ) (lam : ℕ → ℕ → ℤ) : ℕ → ℕ → ℤ :=
  (List.range' 1 (l - 1)).foldl (fun lam i => setL lam k i (lam k i - q * lam l i)) lam

/-- `redi(n,k,l,b,lambda,d)` (illl.cc:63-85). -/
def redi (n k l : ℕ) (s : St m) : Option (St m) :=
  if ¬ (1 ≤ l ∧ l < k ∧ k ≤ n) then none
  else if s.d l = 0 then none
  else
    let q := nearest (s.lam k l) (s.d l)
    if q = 0 then some s
    else some
      { b := Function.update s.b k (s.b k - q • s.b l)
        lam := rediLoop k l q (setL s.lam k l (s.lam k l - q * s.d l))
        d := s.d }

/-- The loop of illl.cc:100-105, exchanging rows `k-1` and `k` of `lambda` up to column `k-2`. -/
def swapLoop (k : ℕ) (lam : ℕ → ℕ → ℤ) : ℕ → ℕ → ℤ :=
  (List.range' 1 (k - 2)).foldl
    (fun lam j => setL (setL lam k j (lam (k - 1) j)) (k - 1) j (lam k j)) lam

/-- The body of the loop of illl.cc:108-113. -/
def swapRow (k : ℕ) (lm bb dk dk1 : ℤ) (lam : ℕ → ℕ → ℤ) (i : ℕ) : ℕ → ℕ → ℤ :=
  let t := lam i k
  let x := (dk * lam i (k - 1) - lm * t).fdiv dk1
  setL (setL lam i k x) i (k - 1) ((bb * t + lm * x).fdiv dk)

/-- `swapi(n,k,kmax,b,lambda,d)` (illl.cc:87-119). -/
def swapi (n k kmax : ℕ) (s : St m) : Option (St m) :=
  if ¬ (2 ≤ k ∧ k ≤ kmax ∧ kmax ≤ n) then none
  else
    let dk := s.d k
    let dk1 := s.d (k - 1)
    if dk1 = 0 then none
    else
      let lam1 := swapLoop k s.lam
      let lm := lam1 k (k - 1)
      let bb := (s.d (k - 2) * dk + lm * lm).fdiv dk1
      if k < kmax ∧ dk = 0 then none
      else some
        { b := Function.update (Function.update s.b (k - 1) (s.b k)) k (s.b (k - 1))
          lam := (List.range' (k + 1) (kmax - k)).foldl (swapRow k lm bb dk dk1) lam1
          d := Function.update s.d (k - 1) bb }

/-- The loop of illl.cc:140, `for(l=k-2; l>0; l--) redi(n,k,l,b,lambda,d)`. -/
def rediDown (n k : ℕ) : ℕ → St m → Option (St m)
  | 0, s => some s
  | l + 1, s => (redi n k (l + 1) s).bind (rediDown n k l)

/-- The test of illl.cc:126-131: `lhs < rhs`. -/
def lovaszFails (k : ℕ) (s : St m) : Prop :=
  4 * (s.d k * s.d (k - 2) + s.lam k (k - 1) * s.lam k (k - 1)) < 3 * (s.d (k - 1) * s.d (k - 1))

instance (k : ℕ) (s : St m) : Decidable (lovaszFails k s) := by
  unfold lovaszFails; infer_instance

/-- `step3(n,k,kmax,b,lambda,d)` (illl.cc:122-143); the new value of the reference argument `k`
is returned. -/
def step3 (n kmax : ℕ) : ℕ → ℕ → St m → Option (ℕ × St m)
  | 0, _, _ => none
  | f + 1, k, s =>
    (redi n k (k - 1) s).bind fun s1 =>
      if lovaszFails k s1 then
        (swapi n k kmax s1).bind fun s2 =>
          step3 n kmax f (if k - 1 < 2 then 2 else k - 1) s2
      else
        (rediDown n k (k - 2) s1).map fun s2 => (k + 1, s2)

/-- One round of the loop of illl.cc:171-174. -/
def uStep (s : St m) (k j : ℕ) (u : ℤ) (i : ℕ) : Option ℤ :=
  if s.d (i - 1) = 0 then none
  else some ((s.d i * u - s.lam k i * s.lam j i).fdiv (s.d (i - 1)))

/-- The value of `u` after the loop of illl.cc:170-174. -/
def uVal (s : St m) (k j : ℕ) : Option ℤ :=
  (List.range' 1 (j - 1)).foldlM (uStep s k j) (sdot s.b k j)

/-- One round `j < k` of the loop of illl.cc:167-175. -/
def lamStep (k : ℕ) (s : St m) (j : ℕ) : Option (St m) :=
  (uVal s k j).map fun u => { s with lam := setL s.lam k j u }

/-- The block of illl.cc:165-186 with the new value `k` of `kmax`; the Boolean says that the
vectors were found dependent. -/
def step2 (n k : ℕ) (s : St m) : Option (Bool × St m) :=
  if ¬ (1 ≤ k ∧ k ≤ n) then none
  else
    ((List.range' 1 (k - 1)).foldlM (lamStep k) s).bind fun s1 =>
      (uVal s1 k k).map fun u =>
        if u = 0 then (true, s1)
        else (false, { s1 with d := Function.update s1.d k u })

/-- The `while` loop (illl.cc:161-192). -/
def loop (n : ℕ) : ℕ → ℕ → ℕ → St m → Option (Bool × St m)
  | 0, _, _, _ => none
  | f + 1, k, kmax, s =>
    if k ≤ n then
      if k > kmax then
        (step2 n k s).bind fun r =>
          if r.1 then some r
          else (step3 n k f k r.2).bind fun r3 => loop n f r3.1 k r3.2
      else (step3 n kmax f k s).bind fun r3 => loop n f r3.1 kmax r3.2
    else some (false, s)

/-- `lll_reduce(n,b)` (illl.cc:151-196).  The result is the flag "input vectors dependent!" and
the array `b` on return.  `n < 1` accesses `d[1]` out of range. -/
def lllReduce (fuel n : ℕ) (b : ℕ → Fin m → ℤ) : Option (Bool × (ℕ → Fin m → ℤ)) :=
  if n < 1 then none
  else
    let d := Function.update (Function.update (fun _ => 0) 0 1) 1 (sdot b 1 1)
    (loop n fuel 2 1 { b := b, lam := fun _ _ => 0, d := d }).map fun r => (r.1, r.2.b)

end Eclib.Lll
