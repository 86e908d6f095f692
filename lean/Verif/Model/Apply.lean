import Verif.Model.IntStr

/-! # Unwrapping values as numbers (include/Srl/TpTools.h:58-190, Resolve.hpp:282-341) -/

namespace Srl.Apply

/-- Target types that are integers for C++. -/
inductive Target where
  | bool
  | int (t : IntTy)
  deriving DecidableEq, Repr

namespace Target
/-- `sizeof`, in bits -/
def bits : Target → Nat
  | bool => 8
  | int t => t.bits
/-- `std::is_signed` -/
def signed : Target → Bool
  | bool => false
  | int t => t.signed
/-- `numeric_limits<T>::lowest()` -/
def lo : Target → Int
  | bool => 0
  | int t => t.lo
/-- `numeric_limits<T>::max()` -/
def hi : Target → Int
  | bool => 1
  | int t => t.hi
end Target

/-- Integer conversion `target = val` (wraps around; to `bool`: non-zero test). -/
def castInt : Target → Int → Int
  | .bool, v => if v = 0 then 0 else 1
  | .int t, v =>
    let r := v % (2 ^ t.bits : Nat)
    if t.signed ∧ r > t.hi then r - (2 ^ t.bits : Nat) else r

/-- `overflows<T, int64_t>` (TpTools.h:76-104) -/
def overflowsSigned (T : Target) (val : Int) : Bool :=
  if T.bits < 64 then val > T.hi || val < T.lo
  else false

/-- `overflows<T, uint64_t>` (TpTools.h:69-104) -/
def overflowsUnsigned (T : Target) (val : Int) : Bool :=
  if T.bits < 64 then val > T.hi
  else if T.signed then val > ((2 ^ 64 - 1) >>> 1 : Nat)
  else false

/-- `(double)max<T>()`: the greatest 64-bit integers are rounded up -/
def maxAsDouble (T : Target) : Int := if T.bits = 64 then T.hi + 1 else T.hi

/-- Conversion of a double to the target: undefined if the truncated value does not fit, except
for `bool`. -/
def castFp (T : Target) (x : Fp.Num) : Res Int :=
  match T, x with
  | .bool, .fin v => .ok (if v = 0 then 0 else 1)
  | .bool, _ => .ok 1
  | .int t, .fin v => if t.lo ≤ Fp.trunc v ∧ Fp.trunc v ≤ t.hi then .ok (Fp.trunc v) else .ub
  | .int _, _ => .ub

/-- `try_apply` for floating point sources (TpTools.h:146-160) and these targets -/
def applyFp (T : Target) (x : Fp.Num) : Res Int :=
  if Fp.ltInt x T.lo || Fp.gtInt x (maxAsDouble T) then .err
  else castFp T x

/-- `apply_type` (TpTools.h:106-184), `err` for `false` (the caller throws, Resolve.hpp:330-340).
Strings and binaries do not reach it. -/
def apply (T : Target) : Val → Res Int
  | .int t v =>
    if t.signed then
      if (!T.signed && v < 0) || overflowsSigned T v then .err else .ok (castInt T v)
    else
      if overflowsUnsigned T v then .err else .ok (castInt T v)
  | .bool b => .ok (castInt T (if b then 1 else 0))
  | .fp32 f => applyFp T (Fp.num32 f)
  | .fp64 d => applyFp T (Fp.num64 d)
  | .null => .ok 0
  | .str _ => .err
  | .bin _ => .err

/-- `Switch<T>::Paste` for integers and `bool` (Resolve.hpp:299-328) -/
def paste (strtod : Bytes → Option UInt64) (T : Target) : Val → Res Int
  | .bin _ => .err
  | .str s => match IntStr.strToType strtod false s with
    | some v => apply T v
    | none => .err
  | v => apply T v

/-- `apply_type` for the target `double`: no 64-bit integer overflows it (TpTools.h:99-104), and floating
point values are not checked (152). Binaries and strings do not reach it. -/
def toDouble : Val → Res UInt64
  | .int _ v => .ok (Fp.ofInt64 v)
  | .bool b => .ok (Fp.ofInt64 (if b then 1 else 0))
  | .fp32 f => .ok (Fp.widen f)
  | .fp64 d => .ok d
  | .null => .ok 0
  | .str _ => .err
  | .bin _ => .err

/-- `apply_type` for the target `float`: no 64-bit integer exceeds `FLT_MAX` (TpTools.h:69-81); doubles that
do are rejected (152-156); the conditional in line 158 is a double, so floats are converted
to `double` and back. -/
def toFloat : Val → Res UInt32
  | .int _ v => .ok (Fp.ofInt32 v)
  | .bool b => .ok (Fp.ofInt32 (if b then 1 else 0))
  | .fp32 f => .ok (Fp.narrow (Fp.widen f))
  | .fp64 d =>
    if Fp.ltInt (Fp.num64 d) (-Fp.fltMax) || Fp.gtInt (Fp.num64 d) Fp.fltMax then .err
    else .ok (Fp.narrow d)
  | .null => .ok 0
  | .str _ => .err
  | .bin _ => .err

/-- `Switch<T>::Paste` for `double` and `float` (Resolve.hpp:299-328) -/
def pasteFp {α : Type} (strtod : Bytes → Option UInt64) (conv : Val → Res α) : Val → Res α
  | .bin _ => .err
  | .str s => match IntStr.strToType strtod false s with
    | some v => conv v
    | none => .err
  | v => conv v

end Srl.Apply
