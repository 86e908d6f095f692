import Verif.Model.KeyCost

/-! # How much is done for the addresses of shared pointers (src/lib/Node.cpp:537-545, include/Srl/Hash.hpp)

While objects are stored the address of the object of each shared pointer is added to the table of addresses, unless it is
in it. Counted are the rounds of the loops of the table, as in `Srl.Cost`. The hash of an address is the address
(Environment.h:32-38), as that of a key. -/

namespace Srl.AddrCost
open HTable Cost KeyCost

/-- `Node::insert_shared` (Node.cpp:537-545) for addresses one after the other: the table afterwards, and what was done -/
def insertAll : Shared.Seen → List Nat → Res (Shared.Seen × Nat)
  | t, [] => .ok (t, 0)
  | t, a :: as => do
    let (_, _, t1) ← Shared.insertShared keys t a
    let (t2, k) ← insertAll t1 as
    .ok (t2, insertSteps keys t a + k)

end Srl.AddrCost
