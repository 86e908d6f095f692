import Verif.Props.TypedSpec

/-! # Specification: containers that are written in an order of their own -/

namespace Srl.Typed

mutual
/-- `o'` is `o` with the elements of tables and of containers without repeated keys in any order, at any level, and
with `free` those of containers with repeated keys as well. -/
def Enumerates (free : Bool) : Ty → Obj → Obj → Prop
  | .vec e, o, o' => ∃ xs ys, o = .many xs ∧ o' = .many ys ∧ xs.length = ys.length ∧
      ∀ p ∈ xs.zip ys, Enumerates free e p.1 p.2
  | .named e, o, o' => ∃ xs ys, o = .many xs ∧ o' = .many ys ∧ xs.length = ys.length ∧
      ∀ p ∈ xs.zip ys, ∃ k x y, p = (.many [k, x], .many [k, y]) ∧ Enumerates free e x y
  | .arr _ e, o, o' => ∃ xs ys, o = .many xs ∧ o' = .many ys ∧ xs.length = ys.length ∧
      ∀ p ∈ xs.zip ys, Enumerates free e p.1 p.2
  | .record _ _ fs, o, o' => ∃ xs ys, o = .many xs ∧ o' = .many ys ∧ EnumeratesL free fs xs ys
  | .ptr _ e, o, o' => (o = .null ∧ o' = .null) ∨ ∃ x y, o = .ref x ∧ o' = .ref y ∧ Enumerates free e x y
  | .sorted b c, o, o' => Enumerates free c o o' ∨
      ((b.multi = false ∨ free = true) ∧ ∃ xs ys, Enumerates free c o (.many xs) ∧ o' = .many ys ∧ xs.Perm ys)
  | _, o, o' => o = o'
def EnumeratesL (free : Bool) : Fields → List Obj → List Obj → Prop
  | .nil, [], [] => True
  | .cons _ _ ty rest, x :: xs, y :: ys => Enumerates free ty x y ∧ EnumeratesL free rest xs ys
  | _, _, _ => False
end

end Srl.Typed
