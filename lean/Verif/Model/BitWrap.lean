import Verif.Model.Base64

/-! # Vectors of numbers as binary data (include/Srl/BitWrap.h, include/Srl/Resolve.hpp:838-899) -/

namespace Srl.BitWrap

/-- A `std::vector` of scalars: the bytes of its elements, and for how many bytes it has memory. Without memory
`data()` is null. -/
structure Vec where
  data : Bytes
  cap : Nat

/-- `resize(n)` for elements of `k` bytes: new elements are zero. `grow` says how much memory is obtained if there is
not enough. -/
def Vec.resize (grow : Nat → Nat) (k n : Nat) (v : Vec) : Vec where
  data := v.data.take (n * k) ++ List.replicate (n * k - v.data.length) 0
  cap := if n * k ≤ v.cap then v.cap else grow (n * k)

/-- `Switch<VecWrap<T>>::Insert` (Resolve.hpp:889-892, 842-852; BitWrap.h:41-43): a vector that has elements has
memory. -/
def insert (v : Vec) : Val := .bin v.data

/-- Number of bytes asked for (Resolve.hpp:857-863); `check_type_string` throws for other values (1029-1036). -/
def need : Val → Res Nat
  | .str s => .ok (Base64.decodedSize s)
  | .bin s => .ok s.length
  | _ => .err

/-- The bytes written to the memory obtained (Resolve.hpp:878-882) -/
def contentOf : Val → Res Bytes
  | .str s => Base64.decodeTo (Base64.decodedSize s) s
  | .bin s => .ok s
  | _ => .err

/-- `Switch<VecWrap<T>>::Paste` (Resolve.hpp:894-898, 854-883) with the function `alloc` of a `VecWrap`
(BitWrap.h:44-49); `k` is `sizeof(T)`. Writing more bytes than there is memory for is undefined; here also if the
decoder would throw on its way there. Bytes written behind the last element are lost. -/
def paste (grow : Nat → Nat) (k : Nat) (v : Vec) (val : Val) : Res Vec := do
  let size ← need val
  let v := v.resize grow k (size / k)
  if size = 0 then .ok v
  else if v.cap = 0 then .err
  else if v.cap < size then .ub
  else do
    let bs ← contentOf val
    .ok { v with data := bs.take v.data.length }

end Srl.BitWrap
