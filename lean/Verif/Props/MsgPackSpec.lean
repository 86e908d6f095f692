import Verif.Basic

/-! # Specification: the MessagePack format

Written from the format specification (formats nil, bool, int, float, str, bin, array and map; maps
with string keys), independently of the model. `wide = false` leaves out the formats with two- and
four-byte lengths of strings and binaries (str 16, str 32, bin 16, bin 32). -/

namespace Srl.Props.MsgPack

/-- `n` bytes, most significant first. -/
def big : Nat → Nat → Bytes
  | 0, _ => []
  | n + 1, v => UInt8.ofNat (v / 256 ^ n % 256) :: big n v

/-- fixstr, str 8, str 16, str 32 -/
def StrFormat (wide : Bool) (s b : Bytes) : Prop :=
  (s.length ≤ 31 ∧ b = UInt8.ofNat (0xa0 + s.length) :: s) ∨
  (s.length < 2 ^ 8 ∧ b = 0xd9 :: (big 1 s.length ++ s)) ∨
  (wide = true ∧ s.length < 2 ^ 16 ∧ b = 0xda :: (big 2 s.length ++ s)) ∨
  (wide = true ∧ s.length < 2 ^ 32 ∧ b = 0xdb :: (big 4 s.length ++ s))

/-- bin 8, bin 16, bin 32 -/
def BinFormat (wide : Bool) (s b : Bytes) : Prop :=
  (s.length < 2 ^ 8 ∧ b = 0xc4 :: (big 1 s.length ++ s)) ∨
  (wide = true ∧ s.length < 2 ^ 16 ∧ b = 0xc5 :: (big 2 s.length ++ s)) ∨
  (wide = true ∧ s.length < 2 ^ 32 ∧ b = 0xc6 :: (big 4 s.length ++ s))

/-- positive fixint, negative fixint, uint 8–64, int 8–64 -/
def IntFormat (v : Int) (b : Bytes) : Prop :=
  (0 ≤ v ∧ v ≤ 127 ∧ b = [UInt8.ofNat v.toNat]) ∨
  (-32 ≤ v ∧ v ≤ -1 ∧ b = [UInt8.ofNat (256 + v).toNat]) ∨
  (0 ≤ v ∧ v < (2 ^ 8 : Nat) ∧ b = 0xcc :: big 1 v.toNat) ∨
  (0 ≤ v ∧ v < (2 ^ 16 : Nat) ∧ b = 0xcd :: big 2 v.toNat) ∨
  (0 ≤ v ∧ v < (2 ^ 32 : Nat) ∧ b = 0xce :: big 4 v.toNat) ∨
  (0 ≤ v ∧ v < (2 ^ 64 : Nat) ∧ b = 0xcf :: big 8 v.toNat) ∨
  (-(2 ^ 7 : Nat) ≤ v ∧ v < (2 ^ 7 : Nat) ∧ b = 0xd0 :: big 1 (v % (2 ^ 8 : Nat)).toNat) ∨
  (-(2 ^ 15 : Nat) ≤ v ∧ v < (2 ^ 15 : Nat) ∧ b = 0xd1 :: big 2 (v % (2 ^ 16 : Nat)).toNat) ∨
  (-(2 ^ 31 : Nat) ≤ v ∧ v < (2 ^ 31 : Nat) ∧ b = 0xd2 :: big 4 (v % (2 ^ 32 : Nat)).toNat) ∨
  (-(2 ^ 63 : Nat) ≤ v ∧ v < (2 ^ 63 : Nat) ∧ b = 0xd3 :: big 8 (v % (2 ^ 64 : Nat)).toNat)

/-- Everything but arrays and maps. -/
def ValFormat (wide : Bool) : Val → Bytes → Prop
  | .null, b => b = [0xc0]
  | .bool v, b => b = [if v then 0xc3 else 0xc2]
  | .int _ v, b => IntFormat v b
  | .fp32 f, b => b = 0xca :: big 4 f.toNat
  | .fp64 d, b => b = 0xcb :: big 8 d.toNat
  | .str s, b => StrFormat wide s b
  | .bin s, b => BinFormat wide s b

/-- fixmap, map 16, map 32; fixarray, array 16, array 32: what precedes `n` elements -/
def HeadFormat : ScopeTy → Nat → Bytes → Prop
  | .object, n, b => (n ≤ 15 ∧ b = [UInt8.ofNat (0x80 + n)]) ∨
      (n < 2 ^ 16 ∧ b = 0xde :: big 2 n) ∨ (n < 2 ^ 32 ∧ b = 0xdf :: big 4 n)
  | .array, n, b => (n ≤ 15 ∧ b = [UInt8.ofNat (0x90 + n)]) ∨
      (n < 2 ^ 16 ∧ b = 0xdc :: big 2 n) ∨ (n < 2 ^ 32 ∧ b = 0xdd :: big 4 n)

/-- In a map every element is preceded by its name. -/
def KeyFormat (wide named : Bool) (n k : Bytes) : Prop :=
  if named then StrFormat wide n k else k = []

mutual
/-- `b` is an encoding of the document; `named`: as element of a map. -/
def Format (wide named : Bool) : Item → Bytes → Prop
  | .val n v, b => ∃ k w, KeyFormat wide named n k ∧ ValFormat wide v w ∧ b = k ++ w
  | .scope n t kids, b => ∃ k h w, KeyFormat wide named n k ∧ HeadFormat t kids.length h ∧
      FormatL wide (t == .object) kids w ∧ b = k ++ (h ++ w)
/-- `b` consists of encodings of the elements, in order. -/
def FormatL (wide named : Bool) : List Item → Bytes → Prop
  | [], b => b = []
  | i :: is, b => ∃ b1 b2, Format wide named i b1 ∧ FormatL wide named is b2 ∧ b = b1 ++ b2
end

end Srl.Props.MsgPack
