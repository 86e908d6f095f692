import Verif.Props.MsgPackSpec
import Verif.Model.Fp

/-! # Specification: what the library takes for MessagePack (C86)

A grammar in terms of bytes and documents. With `odd = false` it has formats of MessagePack only; `odd = true` adds what
the library takes besides: lengths of two and four bytes in the wrong order, the reserved byte, and keys that are no
strings. The formats are those of `Verif/Props/MsgPackSpec.lean`. -/

namespace Srl.LaxMp
open Props.MsgPack (big)

/-- `n` bytes, least significant first -/
def small : Nat → Nat → Bytes
  | 0, _ => []
  | n + 1, v => UInt8.ofNat (v % 256) :: small n (v / 256)

/-- Strings -/
def Text (odd : Bool) (s b : Bytes) : Prop :=
  (s.length ≤ 31 ∧ b = UInt8.ofNat (0xa0 + s.length) :: s) ∨
  (s.length < 2 ^ 8 ∧ b = 0xd9 :: UInt8.ofNat s.length :: s) ∨
  (odd = true ∧ s.length < 2 ^ 16 ∧ b = 0xda :: (small 2 s.length ++ s)) ∨
  (odd = true ∧ s.length < 2 ^ 32 ∧ b = 0xdb :: (small 4 s.length ++ s))

/-- Binary data -/
def Blob (odd : Bool) (s b : Bytes) : Prop :=
  (s.length < 2 ^ 8 ∧ b = 0xc4 :: UInt8.ofNat s.length :: s) ∨
  (odd = true ∧ s.length < 2 ^ 16 ∧ b = 0xc5 :: (small 2 s.length ++ s)) ∨
  (odd = true ∧ s.length < 2 ^ 32 ∧ b = 0xc6 :: (small 4 s.length ++ s))

/-- uint 8–64, int 8–64 -/
def intMark : IntTy → UInt8
  | .u8 => 0xcc
  | .u16 => 0xcd
  | .u32 => 0xce
  | .u64 => 0xcf
  | .i8 => 0xd0
  | .i16 => 0xd1
  | .i32 => 0xd2
  | .i64 => 0xd3

/-- Values, with the types they are kept with: doubles that are floats are kept as such. -/
inductive Value (odd : Bool) : Val → Bytes → Prop
  | null : Value odd .null [0xc0]
  | bool (v : Bool) : Value odd (.bool v) [if v then 0xc3 else 0xc2]
  | pos (v : Int) : 0 ≤ v → v ≤ 127 → Value odd (.int .i32 v) [UInt8.ofNat v.toNat]
  | neg (v : Int) : -32 ≤ v → v ≤ -1 → Value odd (.int .i32 v) [UInt8.ofNat (256 + v).toNat]
  | int (t : IntTy) (v : Int) : t.lo ≤ v → v ≤ t.hi →
      Value odd (.int t v) (intMark t :: big (t.bits / 8) (v % (2 ^ t.bits : Nat)).toNat)
  | float (f : UInt32) : Value odd (.fp32 f) (0xca :: big 4 f.toNat)
  | double (d : UInt64) : Value odd (Fp.ofDouble d) (0xcb :: big 8 d.toNat)
  | text (s b : Bytes) : Text odd s b → Value odd (.str s) b
  | blob (s b : Bytes) : Blob odd s b → Value odd (.bin s) b
  /-- The reserved byte -/
  | reserved : odd = true → Value odd (.int .i32 (-31)) [0xc1]

/-- What begins strings -/
def startsText (p : UInt8) : Prop := (0xa0 ≤ p ∧ p ≤ 0xbf) ∨ (0xd9 ≤ p ∧ p ≤ 0xdb)

/-- What precedes elements: of keys that are no strings one byte is passed over. -/
def Key (odd : Bool) : ScopeTy → Bytes → Bytes → Prop
  | .array, n, k => n = [] ∧ k = []
  | .object, n, k => Text odd n k ∨ (odd = true ∧ n = [] ∧ ∃ p, ¬ startsText p ∧ k = [p])

/-- The elements of a scope -/
inductive Elems (odd : Bool) : ScopeTy → List Item → Bytes → Prop
  | nil (ty : ScopeTy) : Elems odd ty [] []
  | val (ty : ScopeTy) (n : Bytes) (v : Val) (is : List Item) (k w b : Bytes) : Key odd ty n k → Value odd v w →
      Elems odd ty is b → Elems odd ty (.val n v :: is) (k ++ (w ++ b))
  | scope (ty t : ScopeTy) (n : Bytes) (js is : List Item) (k h c b : Bytes) : Key odd ty n k →
      Props.MsgPack.HeadFormat t js.length h → Elems odd t js c → Elems odd ty is b →
      Elems odd ty (.scope n t js :: is) (k ++ (h ++ (c ++ b)))

/-- A document -/
def Document (odd : Bool) (t : ScopeTy) (is : List Item) (b : Bytes) : Prop :=
  ∃ h c, Props.MsgPack.HeadFormat t is.length h ∧ Elems odd t is c ∧ b = h ++ c

end Srl.LaxMp
