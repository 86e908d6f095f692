import Verif.Model.KeyCost

/-! # What is done in the table of keys while objects with shared pointers in shared pointers are restored
(src/lib/Node.cpp:547-559)

`Node::find_shared` looks a key up; if it is new, the object is restored (which can look up and add other keys) and the key
is added afterwards. Counted are the rounds of the loops of the table, as in `Srl.Cost`. -/

namespace Srl.LookCost
open HTable Cost KeyCost

/-- `table.get(key)` and `table.insert(key, create())` (Node.cpp:550, 554) -/
inductive Op where
  | look (key : Nat)
  | add (key : Nat)

/-- Both one after the other: the table afterwards, and what was done. `a` is the address of the next object. -/
def run : Tbl Nat Nat → Nat → List Op → Res (Tbl Nat Nat × Nat)
  | t, _, [] => .ok (t, 0)
  | t, a, .look key :: ops => do
    let _ ← HTable.get keys t key
    let (t', k) ← run t a ops
    .ok (t', getSteps keys t key + k)
  | t, a, .add key :: ops => do
    let (t1, _) ← HTable.insert keys t key a
    let (t', k) ← run t1 (a + 1) ops
    .ok (t', insertSteps keys t key + k)

end Srl.LookCost
