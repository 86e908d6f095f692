import Verif.Basic

/-! # Hex conversion (src/lib/ToolsBtsConv.cpp:140-206) -/

namespace Srl.Hex

/-- `hex_lk` (ToolsBtsConv.cpp:142-144) -/
def lk : List UInt8 := str "0123456789ABCDEF"

/-- Table access `hex_lk[i]`; the index is masked with `0x0F` by every caller. -/
def digit (i : UInt8) : UInt8 := lk.getD i.toNat 0

/-- `bytes_to_hex` (ToolsBtsConv.cpp:140-156). The output vector is built front to back. -/
def encode (bytes : Bytes) : Bytes :=
  bytes.flatMap fun (b : UInt8) => [digit ((b >>> 4) &&& 0x0F), digit (b &&& 0x0F)]

/-- lambda `conv` in `hex_to_bytes` (ToolsBtsConv.cpp:176-189), on `uint8_t` -/
def conv (c : UInt8) : Res UInt8 :=
  if c ≥ 48 ∧ c ≤ 57 then .ok (c - 48)
  else if c ≥ 65 ∧ c ≤ 70 then .ok ((c - 65) + 10)
  else if c ≥ 97 ∧ c ≤ 102 then .ok ((c - 97) + 10)
  else .err

/-- the loop (ToolsBtsConv.cpp:194-205). A lone last character would be an out-of-bounds read. -/
def loop : Bytes → Res Bytes
  | [] => .ok []
  | [_] => .ub
  | h :: l :: rest => do
    let h ← conv h
    let l ← conv l
    let tail ← loop rest
    return ((h <<< 4) ||| l) :: tail

/-- `hex_to_bytes(dest, dest_size, str, str_len)` (ToolsBtsConv.cpp:166-206); returns the bytes
stored at the start of `dest`. -/
def decodeTo (destSize : Nat) (s : Bytes) : Res Bytes :=
  if s.length % 2 ≠ 0 then .err
  else if destSize < s.length / 2 then .err
  else loop s

/-- `hex_to_bytes(str, str_len)` (ToolsBtsConv.cpp:158-164) -/
def decode (s : Bytes) : Res Bytes := decodeTo (s.length / 2) s

end Srl.Hex
