import Verif.Model.Own

/-! # Restored `Srl::String`s (include/Srl/Resolve.hpp:245-259, include/Srl/String.h, src/lib/Node.cpp:373-413)

A `String` is a pointer with a size. Members of this type are restored pointing to where the value is that they are
restored from. Memory is that of `Model/Own.lean`. Only members that are strings are covered here, and documents in which
they are values of the root. -/

namespace Srl.Own

/-- Where a `String` points to: `gone` is a `Value` on the stack of a function that has returned. -/
inductive View where
  | gone
  | at (b : Block)
  deriving DecidableEq, Repr

/-- A `String` is read. -/
def View.read (m : Mem) : View → Res Bytes
  | .gone => .ub
  | .at b => m.read b

/-- `Switch<String>::Paste` (Resolve.hpp:253-258) from a value that ends with the call: what is stored in the value itself is
gone then, unless it is empty. -/
def viewOf : Block → View
  | .loc d => if d = [] then .at (.loc []) else .gone
  | b => .at b

/-- The same from a value of a node that was loaded (Node.hpp:115-117). -/
def viewIn (e g : Nat) : Block → View
  | .loc d => .at (.ext (.link e g d) 0 d.length)
  | b => .at b

namespace Mem

/-- `find_link_iterator` (Node.cpp:124-138) for values kept aside, and the rest of the list without it -/
def takeValue (m : Mem) (name : Bytes) : List PVal → Res (Option (PVal × List PVal))
  | [] => .ok none
  | v :: vs => do
    let d ← m.nameOf v.name
    if d = name then .ok (some (v, vs))
    else do
      let r ← m.takeValue name vs
      .ok (r.map fun (w, ws) => (w, v :: ws))

/-- The loop of `Node::consume_value` (Node.cpp:386-407): values and scopes in front of the one looked for are stored in the
tree. `none`: the end of the scope was read. -/
def seekValue (m : Mem) (e : Nat) (src : Block) (name : Bytes) :
    List Field → List PVal → Res (Option (Nat × Block) × List Field × List PVal × Mem)
  | [], kept => .ok (none, [], kept, m)
  | .val nm kind data :: fs, kept => do
    let (nb, m) := m.nameBlock src nm
    let (vb, m) := m.valueBlock src data
    let d ← m.read nb
    if d = name then .ok (some (kind, vb), fs, kept, m)
    else do
      let (v, m) ← m.storeValue e kind vb d
      m.seekValue e src name fs (kept ++ [v])
  | .scope nm t gs :: fs, kept => do
    let (nb, m) := m.nameBlock src nm
    let d ← m.read nb
    let (c, m) ← m.newNode e t d
    let (_, m) ← m.readFields e src gs c
    m.seekValue e src name fs kept

/-- `Node::consume_value` (Node.cpp:373-413); throws if there is no such value. -/
def consumeValue (m : Mem) (e : Nat) (src : Block) (name : Bytes) (fs : List Field) (kept : List PVal) :
    Res ((Nat × Block) × List Field × List PVal × Mem) := do
  let r ← m.takeValue name kept
  match r with
  | some (v, kept) => .ok ((v.kind, v.block), fs, kept, m)
  | none => do
    let (x, fs, kept, m) ← m.seekValue e src name fs kept
    match x with
    | some x => .ok (x, fs, kept, m)
    | none => .err

/-- Members of type `String`, one after the other (Node.hpp:111-123, 98-103); `isStr`: the kinds of strings (Resolve.hpp:1029-1036). -/
def restoreStrings (isStr : Nat → Bool) (e : Nat) (src : Block) :
    List Bytes → Mem → List Field → List PVal → Res (List View × Mem)
  | [], m, _, _ => .ok ([], m)
  | name :: names, m, fs, kept => do
    let ((kind, b), fs, kept, m) ← m.consumeValue e src name fs kept
    if isStr kind then do
      let (vs, m) ← restoreStrings isStr e src names m fs kept
      .ok (viewOf b :: vs, m)
    else .err

end Mem

/-- `Tree::restore` of an object whose members are `String`s (Tree.cpp:30-50, 77-83), of a tree with environment `e`. If the
parser is a temporary object, as by default, its memory is given up at the end. -/
def restoreViews (isStr : Nat → Bool) (m : Mem) (e : Nat) (src : Block) (root : Piece × ScopeTy) (fs : List Field)
    (names : List Bytes) (temporary : Bool) : Res (List View × Mem) := do
  let m ← m.clearEnv e
  let (nb, m) := m.nameBlock src root.1
  let d ← m.read nb
  let (_, m) ← m.newNode e root.2 d
  let (vs, m) ← Mem.restoreStrings isStr e src names m fs []
  .ok (vs, if temporary then { m with pname := none, pval := none } else m)

end Srl.Own
