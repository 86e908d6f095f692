import Verif.Model.Union
import Verif.Props.PackSpec

/-! # Specification: parts of stored objects by name, and unions that give them -/

namespace Srl.Typed

/-- The object `o` of type `ty` is the part with this name of another object: a member of a class, or the first entry of a table
with this name; of a pointer, the part of what it points to. -/
def Part (name : Bytes) (ty : Ty) (o : Obj) : Ty → Obj → Prop
  | .record .object _ fs, .many xs => Packed name ty o fs xs
  | .named e, .many xs => ty = e ∧ ∃ pre post, xs = pre ++ .many [.str name, o] :: post ∧
      ∀ x ∈ pre, ∀ y, x ≠ .many [.str name, y]
  | .ptr _ e, .ref x => Part name ty o e x
  | .sorted _ c, x => Part name ty o c x
  | _, _ => False

/-- From part to part. -/
def Path : List Bytes → Ty → Obj → Ty → Obj → Prop
  | [], tx, x, ty, o => ty = tx ∧ o = x
  | name :: names, tx, x, ty, o => ∃ tz z, Part name tz z tx x ∧ Path names tz z ty o

/-- The union stands for the object `x`: itself and all its parts are given as they are, and nothing else is found. -/
def Holds (u : Uni) (tx : Ty) (x : Obj) : Prop :=
  ∀ names ty o, Path names tx x ty o → ∃ u', u.follow names = .ok u' ∧
    (∀ env old, WT ty old → u'.copyTo env ty old = .ok o) ∧
    ∀ name, name ≠ [] → (∀ tz z, ¬ Part name tz z ty o) → u'.get name = .err

/-- `x` comes before `a`. -/
def Ahead (order : List Bytes) (x a : Bytes) : Prop := ∃ l1 l2, order = l1 ++ a :: l2 ∧ x ∈ l1

/-- `x` does not come behind all that was asked for. -/
def Passed (order asked : List Bytes) (x : Bytes) : Prop := ∃ a ∈ asked, x = a ∨ Ahead order x a

/-- Nothing is asked for after a union that was stored behind everything asked for up to then. `closed`: a union was
asked for already. -/
def Timely (order : List Bytes) : Bool → List Bytes → List (Bytes × Target) → Prop
  | _, _, [] => True
  | closed, asked, (name, t) :: rest => (closed = true → Passed order asked name) ∧
      Timely order (closed || match t with | .union => true | .obj _ _ => false) (name :: asked) rest

/-- What is asked for was stored, with the same type. -/
def Request (fs : Fields) (xs : List Obj) : Bytes × Target → Prop
  | (name, .obj ty old) => WT ty old ∧ ∃ o, Packed name ty o fs xs
  | (name, .union) => name ∈ fs.names

/-- What was asked for is given. -/
def Given (fs : Fields) (xs : List Obj) : Bytes × Target → Got → Prop
  | (name, .obj ty _), .obj o => Packed name ty o fs xs
  | (name, .union), .union u => ∀ ty o, Packed name ty o fs xs → Holds u ty o
  | _, _ => False

/-- All that was asked for is given, in its order. -/
def AllGiven (fs : Fields) (xs : List Obj) : List (Bytes × Target) → List Got → Prop
  | [], [] => True
  | q :: qs, g :: gs => Given fs xs q g ∧ AllGiven fs xs qs gs
  | _, _ => False

end Srl.Typed
