import Verif.Basic

/-! # Base64 conversion (src/lib/ToolsBtsConv.cpp:8-138) -/

namespace Srl.Base64

/-- `Base64Table::encode` (ToolsBtsConv.cpp:13-18) -/
def alphabet : List UInt8 :=
  str "ABCDEFGHIJKLMNOPQRSTUVWXYZabcdefghijklmnopqrstuvwxyz0123456789+/"

/-- `table.encode[i]`; every caller passes an index below 64. -/
def enc (i : UInt8) : UInt8 := alphabet.getD i.toNat 0

def valInvalid : UInt8 := 255
def valFill : UInt8 := 254

/-- `Base64Table::decode[c]` for an index below 256 (ToolsBtsConv.cpp:22-31) -/
def table (c : UInt8) : UInt8 :=
  if c = 61 then valFill
  else match alphabet.findIdx? (· == c) with
    | some i => UInt8.ofNat i
    | none => valInvalid

/-- `table.decode[(size_t) str[i]]` (ToolsBtsConv.cpp:116-119): `char` is signed, so a byte
of 0x80 or more becomes an index near 2^64, far outside the array. -/
def lookup (c : UInt8) : Res UInt8 := if c ≥ 128 then .ub else .ok (table c)

/-- One round of the encoding loop (ToolsBtsConv.cpp:56-67). -/
def group (b0 b1 b2 : UInt8) : Bytes :=
  [ enc (b0 >>> 2),
    enc (((b0 <<< 4) ||| (b1 >>> 4)) &&& 0x3F),
    enc (((b1 <<< 2) ||| (b2 >>> 6)) &&& 0x3F),
    enc (b2 &&& 0x3F) ]

/-- Encoding loop (ToolsBtsConv.cpp:53-68), missing bytes read as 0. -/
def encLoop : Bytes → Bytes
  | [] => []
  | [b0] => group b0 0 0
  | [b0, b1] => group b0 b1 0
  | b0 :: b1 :: b2 :: rest => group b0 b1 b2 ++ encLoop rest

/-- `bytes_to_base64` (ToolsBtsConv.cpp:42-80): loop, then padding written over the end.
The result is the first `min_size` bytes of `out`. -/
def encode (bytes : Bytes) : Bytes :=
  let minSize := 4 * ((bytes.length + 2) / 3)
  let out := encLoop bytes
  let rem := bytes.length % 3
  let out := if rem > 0 then out.set (minSize - 1) 61 else out
  if rem = 1 then out.set (minSize - 2) 61 else out

/-- `get_base64_decoded_size` (ToolsBtsConv.cpp:82-92) -/
def decodedSize (s : Bytes) : Nat :=
  if s.length < 4 then 0
  else
    let rem := (if s[s.length - 1]? = some 61 then 1 else 0)
             + (if s[s.length - 2]? = some 61 then 1 else 0)
    (s.length / 4) * 3 - rem

/-- Decoding loop (ToolsBtsConv.cpp:113-135) with `left = dest_size - out_idx` bytes to go.
Running out of characters would be an out-of-bounds read. -/
def decLoop (left : Nat) : Bytes → Res Bytes
  | c0 :: c1 :: c2 :: c3 :: rest =>
    if left = 0 then .ok []
    else do
      let b0 ← lookup c0
      let b1 ← lookup c1
      let b2 ← lookup c2
      let b3 ← lookup c3
      if b0 = valInvalid ∨ b1 = valInvalid ∨ b2 = valInvalid ∨ b3 = valInvalid then .err
      else do
        let o := ((b0 <<< 2) ||| (b1 >>> 4)) ::
          ((if 1 < left then [(b1 <<< 4) ||| (b2 >>> 2)] else []) ++
           (if 2 < left then [(b2 <<< 6) ||| b3] else []))
        let tail ← decLoop (left - 3) rest
        return o ++ tail
  | _ => if left = 0 then .ok [] else .ub

/-- `base64_to_bytes(dest, dest_size, str, str_len)` (ToolsBtsConv.cpp:104-138):
the bytes stored in `dest`. -/
def decodeTo (destSize : Nat) (s : Bytes) : Res Bytes :=
  if s.length > 0 ∧ s.length % 4 ≠ 0 then .err else decLoop destSize s

/-- `base64_to_bytes(str, str_len)` (ToolsBtsConv.cpp:94-102) -/
def decode (s : Bytes) : Res Bytes := decodeTo (decodedSize s) s

/-- Restoring a `BitWrap` from a string value (include/Srl/Resolve.hpp:855-883, `Switch<BitWrap>::Paste`): the size is computed first, and a size of zero ends the restore with an empty
result before the text is looked at. -/
def restoreBinary (s : Bytes) : Res Bytes :=
  if decodedSize s = 0 then .ok [] else decode s

end Srl.Base64
