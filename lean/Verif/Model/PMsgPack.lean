import Verif.Model.In
import Verif.Model.Fp
import Verif.Model.Doc
import Verif.Lemmas.Byte

/-! # The MessagePack parser (src/lib/PMsgPack.cpp) -/

namespace Srl.PMsgPack

/-- A scope being written: `PMsgPack::Scope` (include/Srl/PMsgPack.h:22-28). The ticket is the
position of the four bytes reserved for the number of elements. -/
structure WScope where
  type : ScopeTy
  elements : Nat
  ticket : Nat
  deriving DecidableEq, Repr

/-- A scope being read. -/
structure RScope where
  type : ScopeTy
  elements : Nat
  deriving DecidableEq, Repr

/-- `swap_bytes` (PMsgPack.cpp:14-28) of an `n`-byte number, written to memory: big endian. -/
def beBytes (n v : Nat) : Bytes := (leBytes n v).reverse

/-- Number read from memory and passed through `swap_bytes`. -/
def beNat (b : Bytes) : Nat := leNat b.reverse

/-- Prefix bytes of integer types (PMsgPack.cpp:58-69). -/
def intPrefix : IntTy → UInt8
  | .i8 => 0xD0
  | .u8 => 0xCC
  | .i16 => 0xD1
  | .u16 => 0xCD
  | .i32 => 0xD2
  | .u32 => 0xCE
  | .i64 => 0xD3
  | .u64 => 0xCF

/-- Memory representation of an integer as unsigned number (two's complement). -/
def twos (t : IntTy) (v : Int) : Nat := (v % (2 ^ t.bits : Nat)).toNat

/-- Integer with the given representation. -/
def ofTwos (t : IntTy) (n : Nat) : Int :=
  if t.signed ∧ n ≥ 2 ^ (t.bits - 1) then (n : Int) - (2 ^ t.bits : Nat) else n

/-- `write_scalar` on integers with `write_pfixnum` and `write_nfixnum` (PMsgPack.cpp:30-92). -/
def writeInt (t : IntTy) (v : Int) : Bytes :=
  if 0 ≤ v ∧ v ≤ 0x7F then [UInt8.ofNat v.toNat]
  else if t.signed ∧ ¬(v > -1 ∨ v < -31) then [0xE0 ||| UInt8.ofNat (twos .i8 v)]
  else intPrefix t :: beBytes (t.bits / 8) (twos t v)

/-- `write_bin` (PMsgPack.cpp:128-149): two- and four-byte lengths are written in native
(little endian) order. -/
def writeBin (b : Bytes) : Bytes :=
  if b.length ≤ 255 then 0xC4 :: UInt8.ofNat b.length :: b
  else if b.length ≤ 0xFFFE then 0xC5 :: leBytes 2 b.length ++ b
  else 0xC6 :: leBytes 4 b.length ++ b

/-- `write_str` (PMsgPack.cpp:151-176) -/
def writeStr (b : Bytes) : Bytes :=
  if b.length ≤ 0x1F then (0xA0 ||| UInt8.ofNat b.length) :: b
  else if b.length ≤ 0xFE then 0xD9 :: UInt8.ofNat b.length :: b
  else if b.length ≤ 0xFFFE then 0xDA :: leBytes 2 b.length ++ b
  else 0xDB :: leBytes 4 b.length ++ b

/-- `srl_to_msgp` (PMsgPack.cpp:178-196) and `write_scalar` (PMsgPack.cpp:94-126) -/
def writeVal : Val → Bytes
  | .bool b => [if b then 0xC3 else 0xC2]
  | .int t v => writeInt t v
  | .fp32 f => 0xCA :: beBytes 4 f.toNat
  | .fp64 d => 0xCB :: beBytes 8 d.toNat
  | .null => [0xC0]
  | .str s => writeStr s
  | .bin s => writeBin s

/-- `Out::write(ticket, …)` (Out.hpp:41-58) on the output so far. -/
def patch (out : Bytes) (pos : Nat) (b : Bytes) : Bytes :=
  out.take pos ++ b ++ out.drop (pos + b.length)

/-- `PMsgPack::write` with `write_scope` (PMsgPack.cpp:371-412) on the stack of scopes and the
output so far. Ending a scope when there is none is undefined. `elements` has 32 bits. -/
def write (x : List WScope × Bytes) (e : Event) : Res (List WScope × Bytes) :=
  let (stack, out) := x
  match e.tok, stack with
  | .scopeEnd, [] => .ub
  | .scopeEnd, sc :: stack => .ok (stack, patch out sc.ticket (beBytes 4 sc.elements))
  | tok, stack =>
    let (stack, out) := match stack with
      | [] => ([], out)
      | sc :: st =>
        ({ sc with elements := (sc.elements + 1) % 2 ^ 32 } :: st,
          match sc.type with
          | .object => out ++ writeStr e.name
          | .array => out)
    match tok with
    | .scope t =>
      let prefix_ : UInt8 := match t with | .object => 0xDF | .array => 0xDD
      .ok (⟨t, 0, out.length + 1⟩ :: stack, out ++ prefix_ :: [0, 0, 0, 0])
    | .val v => .ok (stack, out ++ writeVal v)
    | .scopeEnd => .ub

/-- Writing a token sequence. -/
def writeAll (x : List WScope × Bytes) : List Event → Res (List WScope × Bytes)
  | [] => .ok x
  | e :: es => do
    let x ← write x e
    writeAll x es

/-- `prefix_is_str` (PMsgPack.cpp:205-208) -/
def isStr (p : UInt8) : Bool := (0xA0 ≤ p && p ≤ 0xBF) || (0xD9 ≤ p && p ≤ 0xDB)
/-- `prefix_is_bin` (PMsgPack.cpp:200-203) -/
def isBin (p : UInt8) : Bool := 0xC4 ≤ p && p ≤ 0xC6
/-- `prefix_is_scope` (PMsgPack.cpp:322-325) -/
def isScope (p : UInt8) : Bool := (0x80 ≤ p && p ≤ 0x9F) || (0xDC ≤ p && p ≤ 0xDF)
/-- `prefix_is_scalar` (PMsgPack.cpp:239-245); note `prefix <= 0xC3`. -/
def isScalar (p : UInt8) : Bool :=
  (0xCA ≤ p && p ≤ 0xD3) || p ≤ 0x7F || 0xE0 ≤ p || p == 0xC2 || p ≤ 0xC3 || p == 0xC0

/-- `In::read_move<T>` (In.hpp:9-19) on an unsigned type of `n` bytes. -/
def readLe (m : Mem) (n : Nat) (s : Bytes) : Res (Nat × Bytes) := do
  let (b, s) ← In.readBlock m n s
  .ok (leNat b, s)

/-- `read_move` followed by `swap_bytes`. -/
def readBe (m : Mem) (n : Nat) (s : Bytes) : Res (Nat × Bytes) := do
  let (b, s) ← In.readBlock m n s
  .ok (beNat b, s)

/-- `read_num` on an integer type (PMsgPack.cpp:210-219). -/
def readInt (m : Mem) (t : IntTy) (s : Bytes) : Res (Val × Bytes) := do
  let (n, s) ← readBe m (t.bits / 8) s
  .ok (.int t (ofTwos t n), s)

/-- `read_num` (PMsgPack.cpp:210-237) -/
def readNum (m : Mem) (p : UInt8) (s : Bytes) : Res (Val × Bytes) :=
  if p = 0xCA then do
    let (n, s) ← readBe m 4 s
    .ok (.fp32 (UInt32.ofNat n), s)
  else if p = 0xCB then do
    let (n, s) ← readBe m 8 s
    .ok (Fp.ofDouble (UInt64.ofNat n), s)
  else if p = 0xCC then readInt m .u8 s
  else if p = 0xCD then readInt m .u16 s
  else if p = 0xCE then readInt m .u32 s
  else if p = 0xCF then readInt m .u64 s
  else if p = 0xD0 then readInt m .i8 s
  else if p = 0xD1 then readInt m .i16 s
  else if p = 0xD2 then readInt m .i32 s
  else if p = 0xD3 then readInt m .i64 s
  else .err

/-- `read_fixnum` (PMsgPack.cpp:253-269) -/
def fixnum (p : UInt8) : Int :=
  if 0x80 &&& p ≠ 0 then ((0x1F &&& p).toNat : Int) - 32 else (0x7F &&& p).toNat

/-- `read_scalar` (PMsgPack.cpp:247-251, 271-279) -/
def readScalar (m : Mem) (p : UInt8) (s : Bytes) : Res (Val × Bytes) :=
  if p = 0xC2 ∨ p = 0xC3 then .ok (.bool (p = 0xC3), s)
  else if 0xCA ≤ p ∧ p ≤ 0xD3 then readNum m p s
  else if p = 0xC0 then .ok (.null, s)
  else .ok (.int .i32 (fixnum p), s)

/-- `get_str_size`, `read_str` (PMsgPack.cpp:281-289, 300-306): the string. -/
def readStr (m : Mem) (p : UInt8) (s : Bytes) : Res (Bytes × Bytes) := do
  let (n, s) ← (if 0xA0 ≤ p ∧ p ≤ 0xBF then .ok ((p &&& 0x1F).toNat, s)
    else if p = 0xD9 then readLe m 1 s
    else if p = 0xDA then readLe m 2 s
    else readLe m 4 s)
  In.readBlock m n s

/-- `get_bin_size`, `read_bin` (PMsgPack.cpp:291-298, 308-314) -/
def readBin (m : Mem) (p : UInt8) (s : Bytes) : Res (Bytes × Bytes) := do
  let (n, s) ← (if p = 0xC4 then readLe m 1 s
    else if p = 0xC5 then readLe m 2 s
    else readLe m 4 s)
  In.readBlock m n s

/-- `get_scope_info` (PMsgPack.cpp:327-353) -/
def readScopeInfo (m : Mem) (p : UInt8) (s : Bytes) : Res ((ScopeTy × Nat) × Bytes) :=
  if p &&& 0x40 ≠ 0 then do
    let (n, s) ← readBe m (if p &&& 1 ≠ 0 then 4 else 2) s
    .ok ((if p &&& 2 ≠ 0 then .object else .array, n), s)
  else .ok ((if p &&& 0x10 ≠ 0 then .array else .object, (0x0F &&& p).toNat), s)

/-- The part of `PMsgPack::read` from the prefix on (PMsgPack.cpp:442-469). -/
def readPrefixed (m : Mem) (stack : List RScope) (name : Bytes) (p : UInt8) (s : Bytes) :
    Res (Event × (List RScope × Bytes)) :=
  if isScope p then do
    let ((t, n), s) ← readScopeInfo m p s
    .ok (⟨name, .scope t⟩, (⟨t, n⟩ :: stack, s))
  else if isStr p then do
    let (b, s) ← readStr m p s
    .ok (⟨name, .val (.str b)⟩, (stack, s))
  else if isScalar p then do
    let (v, s) ← readScalar m p s
    .ok (⟨name, .val v⟩, (stack, s))
  else if isBin p then do
    let (b, s) ← readBin m p s
    .ok (⟨name, .val (.bin b)⟩, (stack, s))
  else .err

/-- Reading the prefix byte, then the rest. -/
def readItem (m : Mem) (stack : List RScope) (name : Bytes) (s : Bytes) :
    Res (Event × (List RScope × Bytes)) := do
  let (b, s) ← In.readBlock m 1 s
  readPrefixed m stack name (b.headD 0) s

/-- `PMsgPack::read` (PMsgPack.cpp:414-469). In an object the key comes first; a key that is not
a string is dropped together with its prefix byte only. -/
def read (m : Mem) (x : List RScope × Bytes) : Res (Event × (List RScope × Bytes)) :=
  match x with
  | ([], s) => readItem m [] [] s
  | (sc :: stack, s) =>
    if sc.elements < 1 then .ok (⟨[], .scopeEnd⟩, (stack, s))
    else
      let stack := { sc with elements := sc.elements - 1 } :: stack
      match sc.type with
      | .array => readItem m stack [] s
      | .object => do
        let (b, s) ← In.readBlock m 1 s
        let p := b.headD 0
        let (name, s) ← (if isStr p then readStr m p s else .ok ([], s))
        readItem m stack name s

/-- `Tree::to_source` with a `PMsgPack` into an empty output. -/
def save (name : Bytes) (n : Node) : Res Bytes := do
  let (_, b) ← writeAll ([], []) (n.events name)
  .ok b

/-- `Tree::read_source` with a `PMsgPack`. Twice the length of the source suffices as step budget
(`Srl.Props.msgpack_load_terminates`): the end of a scope takes no byte. -/
def load (m : Mem) (s : Bytes) : Res (Root × (List RScope × Bytes)) :=
  Doc.load (read m) (2 * s.length + 1) ([], s)

end Srl.PMsgPack
