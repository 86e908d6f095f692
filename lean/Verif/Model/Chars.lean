import Verif.Basic
import Verif.Lemmas.Byte

/-! # Character sets (src/lib/ToolsStrConv.cpp, include/Srl/Resolve.hpp, include/Srl/Tools.hpp)

Strings of `char`, `char16_t`, `char32_t` and `wchar_t` (four bytes) are represented by their bytes in
memory, in the byte order of a little endian machine. Conversion is done by `iconv`, which is not part of
the library: `decode`, `encode` and `iconv` below state what it is taken to do. Sizes are natural numbers:
strings of 2^61 bytes, for which the computation of sizes would wrap, are not considered. -/

namespace Srl.Chars

/-- `Encoding` (Enums.h:18-23) -/
inductive Enc where
  | unknown
  | utf8
  | utf16
  | utf32
  deriving DecidableEq, Repr

/-- The values of the enumeration, as compared at ToolsStrConv.cpp:341 -/
def Enc.rank : Enc → Nat
  | .unknown => 0
  | .utf8 => 1
  | .utf16 => 2
  | .utf32 => 3

/-! ## iconv -/

/-- A continuation byte of UTF-8 -/
def isCont (b : UInt8) : Bool := 0x80 ≤ b.toNat && b.toNat < 0xC0

/-- The first character of a UTF-8 text and the number of bytes it takes. Overlong forms, surrogates and
numbers above 0x10FFFF are rejected; so are incomplete characters. -/
def decode8 : Bytes → Option (Nat × Nat)
  | [] => none
  | a :: rest =>
    if a.toNat < 0x80 then some (a.toNat, 1)
    else if a.toNat < 0xC2 then none
    else if a.toNat < 0xE0 then
      match rest with
      | b :: _ => if isCont b then some ((a.toNat - 0xC0) * 64 + (b.toNat - 0x80), 2) else none
      | _ => none
    else if a.toNat < 0xF0 then
      match rest with
      | b :: c :: _ =>
        if isCont b && isCont c then
          let u := (a.toNat - 0xE0) * 4096 + (b.toNat - 0x80) * 64 + (c.toNat - 0x80)
          if u < 0x800 || (0xD800 ≤ u && u < 0xE000) then none else some (u, 3)
        else none
      | _ => none
    else if a.toNat < 0xF5 then
      match rest with
      | b :: c :: d :: _ =>
        if isCont b && isCont c && isCont d then
          let u := (a.toNat - 0xF0) * 262144 + (b.toNat - 0x80) * 4096 + (c.toNat - 0x80) * 64
            + (d.toNat - 0x80)
          if u < 0x10000 || 0x110000 ≤ u then none else some (u, 4)
        else none
      | _ => none
    else none

/-- The first character of a UTF-16LE text; surrogates have to come in pairs. -/
def decode16 : Bytes → Option (Nat × Nat)
  | a :: b :: rest =>
    let u := a.toNat + 256 * b.toNat
    if u < 0xD800 || 0xE000 ≤ u then some (u, 2)
    else if 0xDC00 ≤ u then none
    else match rest with
      | c :: d :: _ =>
        let v := c.toNat + 256 * d.toNat
        if 0xDC00 ≤ v && v < 0xE000 then some (0x10000 + (u - 0xD800) * 1024 + (v - 0xDC00), 4) else none
      | _ => none
  | _ => none

/-- The first character of a UTF-32LE text. -/
def decode32 : Bytes → Option (Nat × Nat)
  | a :: b :: c :: d :: _ =>
    let u := a.toNat + 256 * (b.toNat + 256 * (c.toNat + 256 * d.toNat))
    if (0xD800 ≤ u && u < 0xE000) || 0x110000 ≤ u then none else some (u, 4)
  | _ => none

/-- The first character of a text: its number and the number of bytes it takes; `none` if the text does not
begin with a complete, valid character (`EINVAL`, `EILSEQ`). -/
def decode : Enc → Bytes → Option (Nat × Nat)
  | .unknown, _ => none
  | .utf8, bs => decode8 bs
  | .utf16, bs => decode16 bs
  | .utf32, bs => decode32 bs

/-- The bytes of a character -/
def encode : Enc → Nat → Bytes
  | .unknown, _ => []
  | .utf8, c =>
    if c < 0x80 then [UInt8.ofNat c]
    else if c < 0x800 then [UInt8.ofNat (0xC0 + c / 64), UInt8.ofNat (0x80 + c % 64)]
    else if c < 0x10000 then
      [UInt8.ofNat (0xE0 + c / 4096), UInt8.ofNat (0x80 + c / 64 % 64), UInt8.ofNat (0x80 + c % 64)]
    else
      [UInt8.ofNat (0xF0 + c / 262144), UInt8.ofNat (0x80 + c / 4096 % 64),
       UInt8.ofNat (0x80 + c / 64 % 64), UInt8.ofNat (0x80 + c % 64)]
  | .utf16, c =>
    if c < 0x10000 then leBytes 2 c
    else leBytes 2 (0xD800 + (c - 0x10000) / 1024) ++ leBytes 2 (0xDC00 + (c - 0x10000) % 1024)
  | .utf32, c => leBytes 4 c

/-- How `iconv` ends: everything converted, `EINVAL` or `EILSEQ`, `E2BIG`. -/
inductive Status where
  | done
  | bad
  | tooBig
  deriving DecidableEq, Repr

/-- `iconv`: converts characters while there are some and the next one fits into `left` bytes; gives the
bytes written and the input left. -/
def iconvGo (src dst : Enc) : Nat → Bytes → Nat → Res (Bytes × Bytes × Status)
  | 0, _, _ => .fuel
  | fuel + 1, bs, left =>
    match bs with
    | [] => .ok ([], [], .done)
    | b :: bs =>
      match decode src (b :: bs) with
      | none => .ok ([], b :: bs, .bad)
      | some (c, n) =>
        if (encode dst c).length ≤ left then do
          let (out, rest, st) ← iconvGo src dst fuel ((b :: bs).drop n) (left - (encode dst c).length)
          .ok (encode dst c ++ out, rest, st)
        else .ok ([], b :: bs, .tooBig)

def iconv (src dst : Enc) (bs : Bytes) (left : Nat) : Res (Bytes × Bytes × Status) :=
  iconvGo src dst (bs.length + 1) bs left

/-! ## conv_charset -/

/-- `vector::resize` -/
def resize (buf : Bytes) (n : Nat) : Bytes := buf.take n ++ List.replicate (n - buf.length) 0

/-- Writing into a vector at an index; undefined outside. -/
def put (buf : Bytes) (i : Nat) (bs : Bytes) : Res Bytes :=
  if i < buf.length ∧ i + bs.length ≤ buf.length then .ok (buf.take i ++ bs ++ buf.drop (i + bs.length))
  else .ub

/-- The loop of `conv_charset` (ToolsStrConv.cpp:352-389): the buffer and the number of bytes converted,
none if the input is not valid. -/
def convLoop (src dst : Enc) (idx : Nat) : Nat → Bytes → Bytes → Nat → Nat → Res (Bytes × Option Nat)
  | 0, _, _, _, _ => .fuel
  | fuel + 1, bs, buf, left, converted => do
    let (out, rest, st) ← iconv src dst bs left
    let buf ← put buf (idx + converted) out
    let left := left - out.length
    match st with
    | .done => .ok (buf, some (buf.length - idx - left))
    | .bad => .ok (buf, none)
    | .tooBig =>
      let current := buf.length
      let newSize := buf.length + rest.length * 4
      convLoop src dst idx fuel rest (resize buf newSize) (newSize - (current - left)) (current - left)

/-- `Tools::conv_charset` (ToolsStrConv.cpp:301-390): the buffer and the size it returns. -/
def convCharset (target : Enc) (bs : Bytes) (src : Enc) (buf : Bytes) (throwError : Bool) (idx : Nat) :
    Res (Bytes × Nat) :=
  if bs.length < 1 then .ok (buf, 0)
  else if src = target then
    let seg := bs.length + idx
    let buf := if buf.length < seg then resize buf seg else buf
    do
      let buf ← put buf idx bs
      .ok (buf, bs.length)
  else if src = .unknown ∨ target = .unknown then
    if throwError then .err else .ok (buf, 0)
  else
    let reserve := bs.length * (if target.rank < src.rank then 1 else if src = .utf16 then 2 else 4)
    let buf := if idx + reserve > buf.length then resize buf (idx + reserve) else buf
    do
      let (buf, n) ← convLoop src target idx (bs.length + 1) bs buf (buf.length - idx) 0
      match n with
      | some n => .ok (buf, n)
      | none => if throwError then .err else .ok (buf, 0)

/-- `Tools::conv_charset` with a fresh vector (ToolsStrConv.cpp:270-277) -/
def convVec (target : Enc) (bs : Bytes) (src : Enc) (throwError : Bool) : Res Bytes := do
  let (buf, n) ← convCharset target bs src [] throwError 0
  .ok (resize buf n)

/-! ## Strings -/

/-- Bytes of a character of the encoding: `sizeof(TChar)`, and `get_encoding` (Resolve.hpp:72-81) the other
way round -/
def Enc.width : Enc → Nat
  | .unknown => 0
  | .utf8 => 1
  | .utf16 => 2
  | .utf32 => 4

/-- `String::unwrap<TChar>` (String.hpp:9-14) and `Tools::conv_charset<TChar>` (Tools.hpp:10-30): a string of
whole characters -/
def unwrap (target : Enc) (bs : Bytes) (src : Enc) (throwError : Bool) : Res Bytes :=
  if bs.length < 1 then .ok []
  else if src = target then .ok (bs.take (bs.length / target.width * target.width))
  else do
    let v ← convVec target bs src throwError
    .ok (v.take (v.length / target.width * target.width))

/-- What is written for a string value: `write_conv` (Environment.cpp:164-194) calls `conv_type`
(Environment.cpp:196-218) unless the string is UTF-8 and the format binary; `buf` is `type_buffer` as left
by earlier values. -/
def writeStr (text : Bool) (bs : Bytes) (enc : Enc) (buf : Bytes) : Res (Bytes × Bytes) :=
  if text = false ∧ enc = .utf8 then .ok (bs, buf)
  else do
    let (buf, n) ← convCharset .utf8 bs enc buf true 0
    .ok (buf.take n, buf)

/-- Several strings in sequence, with one buffer -/
def writeStrs (text : Bool) : List (Bytes × Enc) → Bytes → Res (List Bytes)
  | [], _ => .ok []
  | (bs, e) :: rest, buf => do
    let (w, buf) ← writeStr text bs e buf
    let ws ← writeStrs text rest buf
    .ok (w :: ws)

/-- `Switch<basic_string<T>>::Paste` of a string (Resolve.hpp:102-117); `t` is the encoding of `T` -/
def pasteString (t : Enc) (bs : Bytes) (enc : Enc) : Res Bytes := unwrap t bs enc true

/-- `Switch<T>::Paste` of a single character (Resolve.hpp:144-148), `copy_string` (Resolve.hpp:976-996) -/
def pasteChar (t : Enc) (bs : Bytes) (enc : Enc) : Res Bytes :=
  if enc = t then
    if bs.length ≠ t.width then .err else .ok bs
  else do
    let (buf, n) ← convCharset t bs enc [] true 0
    if n ≠ t.width then .err else .ok (buf.take t.width)

/-! ## Character arrays -/

/-- Writing a character 0 at an index of an array -/
def putZero (w : Nat) (arr : Bytes) (i : Nat) : Res Bytes := 
  if (i + 1) * w ≤ arr.length then .ok (arr.take (i * w) ++ List.replicate w 0 ++ arr.drop ((i + 1) * w))
  else .ub

/-- `memcpy` into an array -/
def copyInto (arr : Bytes) (bs : Bytes) : Res Bytes :=
  if bs.length ≤ arr.length then .ok (bs ++ arr.drop bs.length) else .ub

/-- `Switch<T[N]>::Paste` (Resolve.hpp:190-212) of a string; `arr` are the bytes of the array before. -/
def pasteArray (t : Enc) (arr : Bytes) (bs : Bytes) (enc : Enc) : Res Bytes :=
  let strSize := (arr.length / t.width - 1) * t.width
  if enc = t then
    if bs.length > strSize then .err
    else do
      let arr ← copyInto arr bs
      putZero t.width arr (bs.length / t.width)
  else do
    let (buf, n) ← convCharset t bs enc [] true 0
    if n > strSize then .err
    else do
      let arr ← copyInto arr (buf.take n)
      putZero t.width arr (bs.length / t.width)

/-- `str[size]` is not 0; undefined outside of the array -/
def charAt (w : Nat) (arr : Bytes) (i : Nat) : Res Bool :=
  if (i + 1) * w ≤ arr.length then .ok (((arr.drop (i * w)).take w).any (· != 0)) else .ub

/-- `while(size < str_size && str[size]) size++` (Resolve.hpp:177-178); `n` is `str_size - size` -/
def scan (w : Nat) (arr : Bytes) : Nat → Nat → Res Nat
  | 0, size => .ok size
  | n + 1, size => do
    let c ← charAt w arr size
    if c then scan w arr n (size + 1) else .ok size

/-- `Switch<T[N]>::Wrap`, `WrapArray` (Resolve.hpp:165-188): the bytes stored -/
def wrapArray (t : Enc) (arr : Bytes) : Res Bytes :=
  if arr.length / t.width - 1 = 0 then .ok []
  else do
    let size ← scan t.width arr ((arr.length / t.width - 1) * t.width) 0
    -- the block may reach behind the array; reading it then is undefined
    if size * t.width ≤ arr.length then .ok (arr.take (size * t.width)) else .ub

end Srl.Chars
