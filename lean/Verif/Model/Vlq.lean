import Verif.Model.In

/-! # Variable length integers of the Srl format (src/lib/PSrl.cpp:69-111) -/

namespace Srl.Vlq

/-- `encode_integer` (PSrl.cpp:73-87). `room` is what is left of `uint8_t buffer[10]`; storing
into a full buffer would be undefined behaviour. -/
def encLoop : Nat → Nat → Res Bytes
  | 0, _ => .ub
  | room + 1, n =>
    if n ≥ 128 then do
      let t ← encLoop room (n >>> 7)
      return UInt8.ofNat (n ||| 128) :: t
    else .ok [UInt8.ofNat n]

/-- `encode_integer(integer, out)`; `n` is the `uint64_t` argument. -/
def encode (n : Nat) : Res Bytes := encLoop 10 n

/-- The loop of `decode_integer` (PSrl.cpp:94-101). The list starts with the current block.
Shifting a `uint64_t` by 64 or more is undefined. (`move(1)` onto an existing byte cannot
overflow the address, so it is not checked again here.) -/
def decLoop (m : Mem) (block : UInt8) (out shift : Nat) : Bytes → Res (Nat × Nat × Bytes)
  | [] =>
    if block &&& 128 = 0 then .ok (out, shift, [])
    else do
      let _ ← In.move m 1 []
      .err
  | b :: s =>
    if block &&& 128 = 0 then .ok (out, shift, b :: s)
    else do
      let block' ← In.cur m s
      if shift ≥ 64 then .ub
      else decLoop m block' (out ||| (((127 &&& block').toNat <<< shift) % 2 ^ 64)) (shift + 7) s

/-- `decode_integer(source)` (PSrl.cpp:89-111) -/
def decode (m : Mem) (s : Bytes) : Res (Nat × Bytes) := do
  let block ← In.cur m s
  let (out, shift, s) ← decLoop m block (127 &&& block).toNat 7 s
  if shift > 10 * 7 then .err
  else do
    let s ← In.move m 1 s
    return (out, s)

end Srl.Vlq
