/-!
# Model of libsrc/curvesort.cc and of the conversions in libsrc/interface.cc
-/

namespace Eclib.Codes

/-- fits in `int` -/
def I32 (x : Int) : Prop := -2147483648 ≤ x ∧ x ≤ 2147483647
instance (x : Int) : Decidable (I32 x) := by unfold I32; infer_instance

/-! ## Class codes -/

/-- `alphabet` (eclib/curvesort.h:37) -/
def alphabet : List Char := "abcdefghijklmnopqrstuvwxyz".toList

/-- `codeletter_to_int` (curvesort.cc:266-271): `none` on `int` overflow. -/
def codeletterToInt (code : List Char) : Option Int :=
  code.foldl (fun n c => n.bind fun n =>
    if I32 (n * 26) ∧ I32 (n * 26 + ((c.toNat : Int) - 97)) then
      some (n * 26 + ((c.toNat : Int) - 97)) else none) (some 0)

/-- The `while(n)` loop of `new_codeletter` (curvesort.cc:281-286): the characters in the order in which
they are produced; `none` if `alphabet` is read out of bounds (negative remainder). -/
def codeLoop (n : Int) : Option (List Char) :=
  if _h : n = 0 then some []
  else if n.tmod 26 < 0 then none
  else (alphabet[(n.tmod 26).toNat]?).bind fun c => (codeLoop (n.tdiv 26)).map (c :: ·)
termination_by n.natAbs
decreasing_by
  rw [Int.natAbs_tdiv]
  exact Nat.div_lt_self (by omega) (by decide)

/-- `new_codeletter` (curvesort.cc:275-290), also `codeletter` (eclib/curvesort.h:54). -/
def newCodeletter (i : Int) : Option (List Char) :=
  if i = 0 then some ['a'] else (codeLoop i).map List.reverse

/-! ## Book numbers -/

/-- The arrays `curvesort_*` (curvesort.cc:28-97) and the cases of the `switch` in `booknumber0`
(curvesort.cc:103-249): level and array. -/
def bookTable : List (Int × List Int) := [
  (56, [1, 0]),
  (77, [0, 2, 1]),
  (84, [1, 0]),
  (99, [0, 2, 1, 3]),
  (102, [0, 2, 1]),
  (106, [3, 0, 2, 1]),
  (110, [2, 1, 0]),
  (114, [2, 0, 1]),
  (116, [2, 0, 1]),
  (118, [0, 2, 3, 1]),
  (120, [1, 0]),
  (121, [2, 0, 1, 3]),
  (123, [1, 0]),
  (124, [1, 0]),
  (126, [1, 0]),
  (128, [0, 3, 2, 1]),
  (130, [0, 2, 1]),
  (132, [1, 0]),
  (136, [1, 0]),
  (140, [1, 0]),
  (141, [4, 1, 2, 0, 3]),
  (142, [4, 0, 1, 3, 2]),
  (144, [1, 0]),
  (147, [0, 2, 1]),
  (150, [2, 0, 1]),
  (153, [0, 3, 2, 1]),
  (154, [0, 2, 1]),
  (155, [2, 1, 0]),
  (158, [4, 0, 2, 1, 3]),
  (162, [0, 2, 1, 3]),
  (168, [1, 0]),
  (170, [3, 0, 4, 2, 1]),
  (171, [0, 3, 1, 2]),
  (174, [2, 4, 3, 1, 0]),
  (175, [2, 0, 1]),
  (178, [1, 0]),
  (182, [2, 4, 0, 3, 1]),
  (184, [3, 0, 1, 2]),
  (185, [1, 2, 0]),
  (186, [0, 2, 1]),
  (187, [1, 0]),
  (189, [0, 3, 1, 2]),
  (190, [1, 0, 2]),
  (192, [0, 2, 1, 3]),
  (195, [2, 3, 1, 0]),
  (196, [1, 0]),
  (198, [2, 4, 3, 0, 1]),
  (200, [1, 4, 2, 0, 3]),
  (201, [1, 2, 0]),
  (203, [1, 2, 0]),
  (205, [2, 0, 1]),
  (208, [3, 0, 1, 2]),
  (210, [3, 1, 2, 0, 4]),
  (212, [1, 0]),
  (214, [3, 1, 0, 2]),
  (219, [1, 2, 0]),
  (221, [1, 0]),
  (222, [4, 3, 0, 2, 1]),
  (234, [1, 2, 0, 3, 4]),
  (235, [2, 0, 1]),
  (236, [1, 0]),
  (238, [3, 0, 4, 2, 1]),
  (240, [1, 2, 0, 3]),
  (242, [1, 0]),
  (245, [2, 0, 1]),
  (246, [4, 5, 2, 0, 6, 3, 1]),
  (249, [1, 0]),
  (252, [1, 0]),
  (254, [3, 2, 0, 1]),
  (256, [1, 0, 2, 3]),
  (262, [1, 0]),
  (264, [3, 0, 1, 2]),
  (267, [1, 0]),
  (270, [1, 2, 3, 0]),
  (272, [0, 3, 1, 2]),
  (274, [2, 1, 0]),
  (278, [1, 0]),
  (285, [2, 0, 1]),
  (286, [1, 3, 0, 4, 2, 5]),
  (288, [0, 4, 2, 1, 3]),
  (291, [3, 1, 0, 2]),
  (294, [4, 5, 6, 2, 0, 1, 3]),
  (297, [3, 0, 2, 1]),
  (298, [1, 0]),
  (300, [0, 2, 3, 1]),
  (302, [1, 0, 2]),
  (304, [4, 2, 0, 1, 3, 5]),
  (306, [2, 1, 0, 3]),
  (312, [2, 0, 5, 1, 3, 4]),
  (315, [1, 0]),
  (318, [3, 2, 0, 4, 1]),
  (320, [4, 0, 1, 2, 3, 5]),
  (322, [1, 0, 3, 2]),
  (324, [0, 1, 3, 2]),
  (325, [4, 0, 1, 3, 2]),
  (326, [0, 2, 1]),
  (330, [0, 4, 3, 2, 1]),
  (333, [3, 0, 1, 2]),
  (336, [2, 0, 1, 4, 3, 5]),
  (338, [0, 3, 4, 2, 5, 1]),
  (339, [1, 0, 2]),
  (342, [5, 6, 3, 4, 0, 1, 2]),
  (345, [0, 4, 2, 3, 1, 5]),
  (348, [1, 3, 0, 2]),
  (350, [1, 5, 0, 3, 2, 4]),
  (352, [2, 4, 0, 1, 3, 5]),
  (354, [3, 2, 0, 1, 4, 5]),
  (360, [1, 2, 0, 4, 3]),
  (364, [1, 0]),
  (366, [5, 6, 1, 3, 0, 2, 4]),
  (368, [0, 4, 3, 1, 6, 5, 2]),
  (369, [1, 0]),
  (370, [0, 2, 1, 3]),
  (372, [0, 2, 3, 1]),
  (378, [6, 1, 4, 0, 7, 3, 5, 2]),
  (380, [1, 0]),
  (381, [1, 0]),
  (384, [1, 4, 2, 0, 3, 5, 6, 7]),
  (387, [2, 0, 1, 3, 4]),
  (390, [0, 5, 6, 3, 4, 1, 2]),
  (392, [4, 1, 0, 2, 3, 5]),
  (396, [1, 0, 2]),
  (400, [0, 5, 7, 2, 6, 3, 4, 1]),
  (402, [0, 1, 3, 2]),
  (404, [1, 0]),
  (405, [3, 0, 1, 5, 4, 2]),
  (406, [0, 2, 3, 1]),
  (408, [0, 3, 2, 1]),
  (410, [1, 3, 0, 2]),
  (414, [2, 3, 0, 1]),
  (418, [1, 0, 2]),
  (423, [4, 2, 5, 1, 3, 6, 0]),
  (425, [0, 3, 1, 2]),
  (426, [2, 0, 1]),
  (427, [1, 2, 0]),
  (432, [4, 6, 1, 0, 5, 7, 2, 3]),
  (434, [0, 4, 1, 3, 2]),
  (435, [1, 0, 2, 3]),
  (437, [1, 0]),
  (438, [5, 6, 0, 2, 1, 4, 3]),
  (440, [0, 3, 1, 2]),
  (441, [1, 0, 3, 4, 2, 5]),
  (442, [1, 4, 0, 2, 3]),
  (446, [0, 3, 2, 1]),
  (448, [0, 6, 1, 3, 4, 5, 7, 2]),
  (450, [5, 6, 3, 1, 4, 0, 2])]

/-- `booknumber0` (curvesort.cc:99-254): `none` when the array is read out of bounds. -/
def booknumber0 (level form : Int) : Option Int :=
  if level < 56 then some form
  else if level > 450 then some form
  else match bookTable.lookup level with
    | some t => if form < 0 then none else t[form.toNat]?
    | none => some form

/-- `booknumber` (curvesort.cc:256-259) -/
def booknumber (level form : Int) : Option Int := (booknumber0 level (form - 1)).map (1 + ·)

/-! ## Conversions from bigint -/

/-- `I2int` and `I2long` (interface.cc:26-61) with `MAX`, `MIN` the extreme values of the target type.
`rem(x,long)` is NTL's remainder (non-negative for positive modulus).  `fuel` counts the nested
calls (the code calls itself at most once); the flag says whether the message was printed. -/
def I2 (MAX MIN : Int) : Nat → Int → Option (Int × Bool)
  | 0, _ => none
  | fuel + 1, x =>
    if x = 0 then some (0, false)
    else if ¬ (x ≤ MAX ∧ x ≥ MIN) then some (0, true)
    else if x > 0 then some (if x = MAX then MAX else x.fmod MAX, false)
    else if x = MIN then some (MIN, false)
    else (I2 MAX MIN fuel (-x)).bind fun r =>
      if MIN ≤ -r.1 ∧ -r.1 ≤ MAX then some (-r.1, r.2) else none

/-- `I2int` (interface.cc:26-42) -/
def I2int (x : Int) : Option (Int × Bool) := I2 2147483647 (-2147483648) 2 x
/-- `I2long` (interface.cc:45-61) -/
def I2long (x : Int) : Option (Int × Bool) := I2 9223372036854775807 (-9223372036854775808) 2 x

end Eclib.Codes
