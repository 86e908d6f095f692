import Verif.Props.TypedSpec

/-! # Loaded objects: specification for C74 -/

namespace Srl.LoadObject
open Typed

/-- Pairs and tables, and pointers to them: they are only taken from objects. -/
def Strict : Ty → Bool
  | .named _ => true
  | .record _ strict _ => strict
  | .ptr _ e => Strict e
  | .sorted _ c => Strict c
  | _ => false

/-- The root of the tree can hold what belongs to the type: an object can hold anything, an array what is
stored as an array, and single values. -/
def Suits (root : ScopeTy) (ty : Ty) : Prop :=
  root = .object ∨ ty.isScope = false ∨ ty.scopeTy = .array

end Srl.LoadObject
