import Verif.Model.Cost
import Verif.Model.Shared

/-! # How much is done for the keys of shared pointers (src/lib/Node.cpp:547-559, include/Srl/Hash.hpp)

While objects are restored the key of each shared pointer is looked up in the table of keys, and added to it if it is new.
Counted are the rounds of the loops of the table, as in `Srl.Cost`. -/

namespace Srl.KeyCost
open HTable Cost

/-- `HashSrl<size_t>` (Hash.h:30-33), and the load factor 1.0 (Hash.h:47) -/
def keys : Cfg Nat := ⟨UInt64.ofNat, id⟩

/-- `Node::find_shared` (Node.cpp:547-559): the table afterwards, and what was done; `a` is the address of the object that is
created if the key is new. -/
def find (t : Tbl Nat Nat) (key a : Nat) : Res (Tbl Nat Nat × Nat) := do
  let x ← HTable.get keys t key
  let n := getSteps keys t key
  match x with
  | some _ => .ok (t, n)
  | none => do
    let (t', _) ← HTable.insert keys t key a
    .ok (t', n + insertSteps keys t key)

/-- The keys of the pointers of a sequence one after the other. An object is created for each that is new, with the next
address. -/
def findAll : Tbl Nat Nat → List Nat → Res (Tbl Nat Nat × Nat)
  | t, [] => .ok (t, 0)
  | t, key :: ks => do
    let (t, a) ← find t key t.elements
    let (t, b) ← findAll t ks
    .ok (t, a + b)

end Srl.KeyCost
