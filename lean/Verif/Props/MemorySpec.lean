import Verif.Model.Typed

/-! Specification for C84: what documents and objects hold. -/

namespace Srl.Props.Room
open Typed

/-- The bytes of a string or binary -/
def valBytes : Val → Nat
  | .str s => s.length
  | .bin s => s.length
  | _ => 0

/-- What names count for: their bytes if each item has its own, nothing if items share them. -/
def nameBytes (own : Bool) (name : Bytes) : Nat := if own then name.length else 0

/-- What a token adds to what is held -/
def gain (own : Bool) (e : Event) : Nat :=
  match e.tok with
  | .scopeEnd => 0
  | .scope _ => 1 + nameBytes own e.name
  | .val v => 1 + valBytes v + nameBytes own e.name

mutual
/-- One for a node and each value and node in it at any depth, the bytes of all strings and binaries, and those of the
names. -/
def size (own : Bool) : Node → Nat
  | .mk _ vs ns => 1 + (vs.map (fun p => 1 + valBytes p.2 + nameBytes own p.1)).sum + sizes own ns
def sizes (own : Bool) : List (Bytes × Node) → Nat
  | [] => 0
  | (name, n) :: ns => nameBytes own name + size own n + sizes own ns
end

mutual
/-- The names of the values and nodes in a node, at any depth -/
def names : Node → List Bytes
  | .mk _ vs ns => vs.map (·.1) ++ namesL ns
def namesL : List (Bytes × Node) → List Bytes
  | [] => []
  | (name, n) :: ns => name :: names n ++ namesL ns
end

/-- The bytes of a list of texts -/
def total (xs : List Bytes) : Nat := (xs.map List.length).sum

mutual
/-- One for each number, string, container, class and pointer in an object, and the bytes of its strings and binaries. -/
def weight : Obj → Nat
  | .bool _ => 1
  | .int _ => 1
  | .float _ => 1
  | .double _ => 1
  | .str s => 1 + s.length
  | .many xs => 1 + weights xs
  | .null => 1
  | .ref o => 1 + weight o
def weights : List Obj → Nat
  | [] => 0
  | x :: xs => weight x + weights xs
end

mutual
/-- What objects of a type may weigh for each byte of a document: more than one where a byte makes an element of a
sequence which is an object with members or is behind a pointer, and the texts of numbers, of at most 30 bytes. -/
def factor : Ty → Nat
  | .bool => 1
  | .int _ => 1
  | .float => 1
  | .double => 1
  | .str => 31
  | .bytes => 1
  | .vec e => 1 + weight (dflt e) + factor e
  | .named e => 4 + weight (dflt e) + factor e
  | .arr _ e => factor e
  | .record _ _ fs => factors fs
  | .ptr _ e => 1 + weight (dflt e) + factor e
  | .sorted _ c => weight (dflt c) + factor c
def factors : Fields → Nat
  | .nil => 0
  | .cons _ _ ty rest => factor ty + factors rest
end

mutual
/-- No tables: types none of whose parts has names of a document in it -/
def noTables : Ty → Prop
  | .named _ => False
  | .vec e => noTables e
  | .arr _ e => noTables e
  | .record _ _ fs => noTablesL fs
  | .ptr _ e => noTables e
  | .sorted _ c => noTables c
  | _ => True
def noTablesL : Fields → Prop
  | .nil => True
  | .cons _ _ ty rest => noTables ty ∧ noTablesL rest
end

end Srl.Props.Room
