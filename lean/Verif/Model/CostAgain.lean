import Verif.Model.Cost
import Verif.Model.Reuse

/-! # How much is done for names with trees and parsers that were used before

`HTable::clear` (include/Srl/Hash.hpp:215-227) forgets the entries of a table, but not its capacity: the first name that is
added afterwards makes it allocate and clear as many buckets as it had (Hash.hpp:51-57, 229-235). Counted are the same
things as in `Srl.Cost`. Not counted is what `Heap::clear` does. -/

namespace Srl.Cost
open HTable

variable {σ : Type}

/-- Loading a document into a tree with this table of names, which is cleared first (Tree.cpp:30-38 with
Environment.cpp:220-226): the table afterwards, and what was done -/
def loadInto (read : σ → Res (Event × σ)) (fuel : Nat) (s : σ) (t : Strs) : Res (Root × Strs × Nat) := do
  let (r, x) ← Doc.load (counted read) fuel (s, HTable.clear t, 0)
  .ok (r, x.2.1, x.2.2)

end Srl.Cost

namespace Srl.PSrl
open Cost

/-- What `write_head` does for a name besides writing (PSrl.cpp:119-142): hashing it, and the rounds of `insert`. One for
the token itself. -/
def Obj.steps (cfg : HTable.Cfg Bytes) (o : Obj) (e : Event) : Nat :=
  match e.tok with
  | .scopeEnd => 1
  | _ =>
    if e.name.length < 1 ∨ o.stack.head? ≠ some .object then 1
    else 1 + e.name.length + insertSteps cfg o.hashed e.name

/-- Writing tokens: the parser afterwards, and what was done -/
def Obj.stepsAll (cfg : HTable.Cfg Bytes) (o : Obj) : List Event → Res (Obj × Nat)
  | [] => .ok (o, 0)
  | e :: es => do
    let (o', _) ← o.write cfg e
    let (o', k) ← o'.stepsAll cfg es
    .ok (o', o.steps cfg e + k)

/-- Saving with a parser used before, and what was done -/
def Obj.saveSteps (cfg : HTable.Cfg Bytes) (o : Obj) (name : Bytes) (n : Node) : Res (Obj × Nat) :=
  o.clear.stepsAll cfg (n.events name)

end Srl.PSrl
