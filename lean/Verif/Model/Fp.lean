import Verif.Basic

/-! # IEEE-754 numbers as bit patterns

Only what the library does with them: comparing, truncating, `(float)` and back. Magnitudes are
counted in units of the smallest positive double, `2^-1074`, so every finite double and float is
an integer. -/

namespace Srl.Fp

/-- Numeric meaning of a floating point datum. -/
inductive Num where
  | nan
  | inf (neg : Bool)
  /-- the number `v * 2^-1074` -/
  | fin (v : Int)
  deriving DecidableEq, Repr

/-- One, in units of `2^-1074`. -/
def one : Nat := 2 ^ 1074

/-- Magnitude of the datum with exponent-and-mantissa field `n` and `p` mantissa bits, in units
of the format's smallest positive number. -/
def mag (p n : Nat) : Nat :=
  if n / 2 ^ p = 0 then n else (2 ^ p + n % 2 ^ p) * 2 ^ (n / 2 ^ p - 1)

/-- Inverse of `mag` on magnitudes with at most `p + 1` significant bits. -/
def enc (p s : Nat) : Nat :=
  if s < 2 ^ p then s else (s.log2 - p) * 2 ^ p + s / 2 ^ (s.log2 - p)

/-- `s / 2^k` rounded to nearest, ties to even. -/
def rne (s k : Nat) : Nat :=
  let d := s / 2 ^ k
  let r := s % 2 ^ k
  if 2 * r > 2 ^ k ∨ (2 * r = 2 ^ k ∧ d % 2 = 1) then d + 1 else d

/-- Sign bit and the remaining 63 bits of a double. -/
def split64 (b : UInt64) : Bool × Nat := (decide (b.toNat ≥ 2 ^ 63), b.toNat % 2 ^ 63)
def join64 (s : Bool) (n : Nat) : UInt64 := UInt64.ofNat ((if s then 2 ^ 63 else 0) + n)
/-- Sign bit and the remaining 31 bits of a float. -/
def split32 (b : UInt32) : Bool × Nat := (decide (b.toNat ≥ 2 ^ 31), b.toNat % 2 ^ 31)
def join32 (s : Bool) (n : Nat) : UInt32 := UInt32.ofNat ((if s then 2 ^ 31 else 0) + n)

/-- exponent-and-mantissa field of infinity -/
def inf64 : Nat := 2047 * 2 ^ 52
def inf32 : Nat := 255 * 2 ^ 23

def num64 (b : UInt64) : Num :=
  let (s, n) := split64 b
  if n > inf64 then .nan
  else if n = inf64 then .inf s
  else .fin (if s then -(mag 52 n : Int) else mag 52 n)

/-- The smallest positive float is `2^-149 = 2^925 * 2^-1074`. -/
def num32 (b : UInt32) : Num :=
  let (s, n) := split32 b
  if n > inf32 then .nan
  else if n = inf32 then .inf s
  else .fin (if s then -((mag 23 n * 2 ^ 925 : Nat) : Int) else (mag 23 n * 2 ^ 925 : Nat))

/-- `(double)f`: exact. -/
def widen (f : UInt32) : UInt64 :=
  let (s, n) := split32 f
  if n > inf32 then join64 s (inf64 + 2 ^ 51 + (n % 2 ^ 22) * 2 ^ 29)
  else if n = inf32 then join64 s inf64
  else join64 s (enc 52 (mag 23 n * 2 ^ 925))

/-- `(float)d`: round to nearest, ties to even; too large numbers become infinite. -/
def narrow (d : UInt64) : UInt32 :=
  let (s, n) := split64 d
  if n > inf64 then join32 s (inf32 + 2 ^ 22 + (n / 2 ^ 29) % 2 ^ 22)
  else if n = inf64 then join32 s inf32
  else
    let k := (mag 52 n).log2 - 948
    join32 s (min inf32 (k * 2 ^ 23 + rne (mag 52 n) (925 + k)))

/-- Field of the number with `p` mantissa bits nearest to `s`, ties to even; the format's smallest positive number
is `2^u`. -/
def roundAt (p u s : Nat) : Nat :=
  let k := s.log2 - (p + u)
  k * 2 ^ p + rne s (u + k)

/-- `(double)v` for an integer of at most 64 bits -/
def ofInt64 (v : Int) : UInt64 := join64 (v < 0) (roundAt 52 0 (v.natAbs * one))

/-- `(float)v`, likewise -/
def ofInt32 (v : Int) : UInt32 := join32 (v < 0) (roundAt 23 925 (v.natAbs * one))

/-- `FLT_MAX`, an integer -/
def fltMax : Int := 2 ^ 128 - 2 ^ 104

/-- `==` on doubles -/
def feq (a b : UInt64) : Bool :=
  match num64 a, num64 b with
  | .nan, _ => false
  | _, .nan => false
  | x, y => x = y

/-- `x < k` for a double `x` and an integer `k` that is exactly representable -/
def ltInt (x : Num) (k : Int) : Bool :=
  match x with
  | .nan => false
  | .inf neg => neg
  | .fin v => v < k * one

/-- `x > k`, likewise -/
def gtInt (x : Num) (k : Int) : Bool :=
  match x with
  | .nan => false
  | .inf neg => !neg
  | .fin v => v > k * one

/-- Truncation towards zero of a finite number. -/
def trunc (v : Int) : Int := v.tdiv one

/-- `Value(double)` (Value.hpp:17-25) -/
def ofDouble (d : UInt64) : Val :=
  if feq (widen (narrow d)) d then .fp32 (narrow d) else .fp64 d

/-- `Value::unwrap<double>` of a floating point value (TpTools.h:146-160) -/
def toDouble : Val → Option UInt64
  | .fp32 f => some (widen f)
  | .fp64 d => some d
  | _ => none

end Srl.Fp
