import Verif.Basic

/-! # String hash (src/lib/Hash.cpp) -/

namespace Srl.Fnv

/-- `fnv1a_prime`, `fnv1a_base` (Hash.cpp:8-9) -/
def prime : UInt64 := 0x100000001B3
def base : UInt64 := 0xCBF29CE484222325

/-- one octet: exclusive-or, then multiply (Hash.cpp:13). The factors are swapped (multiplication
is commutative): the kernel unfolds a product along its second factor. -/
def step (h : UInt64) (b : UInt8) : UInt64 := prime * (h ^^^ b.toUInt64)

/-- `fnv1a_unfold<N>` (Hash.cpp:11-18); reading behind the data would be undefined behaviour -/
def unfold : Nat → Bytes → UInt64 → Res UInt64
  | 0, _, h => .ok h
  | n + 1, b :: bs, h => unfold n bs (step h b)
  | _ + 1, [], _ => .ub

/-- The unrolled loop (Hash.cpp:23-27), `n` rounds; returns the hash and the moved pointer. -/
def loop : Nat → Bytes → UInt64 → Res (UInt64 × Bytes)
  | 0, bs, h => .ok (h, bs)
  | n + 1, bs, h => do
    let h ← unfold 8 bs h
    loop n (bs.drop 8) h

/-- `hash_fnc` (Hash.cpp:19-49). The `switch` on `rem` calls `fnv1a_unfold<rem>` for 1 to 7. -/
def hash (bytes : Bytes) : Res UInt64 := do
  let (h, bs) ← loop (bytes.length / 8) bytes base
  let rem := bytes.length % 8
  if rem = 0 then .ok h else unfold rem bs h

end Srl.Fnv
