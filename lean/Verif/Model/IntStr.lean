import Verif.Model.Fp

/-! # Text to number and number to text (src/lib/ToolsStrConv.cpp) -/

namespace Srl.IntStr

/-- `Tools::is_space` (Tools.hpp:32-35) -/
def isSpace (c : UInt8) : Bool := c == 32 || (9 ≤ c && c ≤ 13)

/-- `Tools::trim_space` (ToolsStrConv.cpp:174-188) -/
def trimSpace (s : Bytes) : Bytes := ((s.dropWhile isSpace).reverse.dropWhile isSpace).reverse

/-- The digit loop of `str_to_int` (ToolsStrConv.cpp:61-75), in 64-bit wrap-around arithmetic.
`none`: left by `break`, so `idx < str_len`. -/
def digitLoop : Bytes → Nat → Option Nat
  | [], val => some val
  | c :: s, val =>
    if c < 48 ∨ c > 57 then none
    else
      let tmp := (val * 10 + c.toNat - 48) % 2 ^ 64
      if tmp < val then none else digitLoop s tmp

/-- `str_to_int` (ToolsStrConv.cpp:46-80): value and sign flag, `none` when not successful. -/
def strToInt (s : Bytes) : Option (Nat × Bool) :=
  match s with
  | 45 :: [] => none
  | 45 :: s => match digitLoop s 0 with
    | some v => if v ≤ 2 ^ 63 - 1 then some (v, true) else none
    | none => none
  | s => match digitLoop s 0 with
    | some v => some (v, false)
    | none => none

/-- `Tools::str_to_type` (ToolsStrConv.cpp:190-230). `strtod` gives the double denoted by the
whole text, `none` if the C function does not consume all of it (str_to_double, 21-44).
`hintFp`: `TpTools::is_fp(hint)`. `none`: `{ false, Null }`. -/
def strToType (strtod : Bytes → Option UInt64) (hintFp : Bool) (s : Bytes) : Option Val :=
  let s := trimSpace s
  if s.length < 1 then none
  else
    let c := s.headD 0
    if s.length ≥ 4 ∧ c ≥ 102 ∧ (c = 116 ∨ c = 84) ∧ s.length = 4 ∧ s.drop 1 = str "rue" then
      some (.bool true)
    else if s.length ≥ 4 ∧ c ≥ 102 ∧ (c = 102 ∨ c = 70) ∧ s.length = 5 ∧ s.drop 1 = str "alse" then
      some (.bool false)
    else if s.length ≥ 4 ∧ c ≥ 102 ∧ (c = 110 ∨ c = 78) ∧ s.length = 4 ∧ s.drop 1 = str "ull" then
      some .null
    else
      match if hintFp then none else strToInt s with
      | some (i, true) => some (.int .i64 (-(i : Int)))
      | some (i, false) => some (.int .u64 i)
      | none => (strtod s).map Fp.ofDouble

/-- `numeric_limits<T>::digits10` -/
def digits10 : IntTy → Nat
  | .i8 => 2 | .u8 => 2 | .i16 => 4 | .u16 => 4 | .i32 => 9 | .u32 => 9 | .i64 => 18 | .u64 => 19

/-- `buffer_size` (ToolsStrConv.cpp:96) -/
def bufferSize (t : IntTy) : Nat := digits10 t + 1 + (if t.signed then 1 else 0)

/-- The digit loop of `conv_type` (ToolsStrConv.cpp:111-117). `room` is the number of buffer bytes
at and before `ptr`; a store with no room left would be undefined behaviour. -/
def putDigits : Nat → Nat → Bytes → Res (Nat × Bytes)
  | 0, val, acc => if val > 0 then .ub else .ok (0, acc)
  | room + 1, val, acc =>
    if val > 0 then putDigits room (val / 10) (UInt8.ofNat (48 + val % 10) :: acc)
    else .ok (room + 1, acc)

/-- `conv_type` from line 104 on, for the magnitude `val`. -/
def format (t : IntTy) (negative : Bool) (val : Nat) : Res Bytes :=
  if val = 0 then .ok [48]
  else do
    let (room, acc) ← putDigits (bufferSize t) val []
    if negative then
      if room = 0 then .ub else .ok (45 :: acc)
    else .ok acc

/-- `conv_type` for integers (ToolsStrConv.cpp:91-129). Negating the most negative 64-bit integer
is undefined. -/
def intToStr (t : IntTy) (v : Int) : Res Bytes :=
  let negative : Bool := t.signed && v < 0
  if negative ∧ v = -(2 ^ 63 : Nat) then .ub
  else format t negative v.natAbs

end Srl.IntStr
