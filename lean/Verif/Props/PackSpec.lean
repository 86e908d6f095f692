import Verif.Props.TypedDocsSpec

/-! # Specification: items stored under names -/

namespace Srl.Typed

/-- The object `o` of type `ty` is stored under the name. -/
def Packed (name : Bytes) (ty : Ty) (o : Obj) : Fields → List Obj → Prop
  | .cons name' _ ty' rest, x :: xs => (name = name' ∧ ty = ty' ∧ o = x) ∨ Packed name ty o rest xs
  | _, _ => False

/-- What is asked for are some of the stored items, in any order; `ys` are their objects. -/
def Asked (fs : Fields) (xs : List Obj) : Fields → List Obj → Prop
  | .nil, ys => ys = []
  | .cons name _ ty rest, ys => ∃ y ys', ys = y :: ys' ∧ Packed name ty y fs xs ∧ Asked fs xs rest ys'

/-- What is asked for is stored, or its name is not. -/
def Wanted (fs : Fields) (xs : List Obj) : Fields → Prop
  | .nil => True
  | .cons name _ ty rest => ((∃ y, Packed name ty y fs xs) ∨ name ∉ fs.names) ∧ Wanted fs xs rest

/-- Something is asked for, not as an option, of which the name is not stored. -/
def Missing (fs : Fields) : Fields → Prop
  | .nil => False
  | .cons name opt _ rest => (opt = false ∧ name ∉ fs.names) ∨ Missing fs rest

end Srl.Typed
