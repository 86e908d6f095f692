import Verif.Model.Typed

/-! # How much is done to restore an object from a tree that was loaded

Counted are the rounds of the loops over the items of a node, the bytes of names that are hashed, compared and copied, and
the bytes of strings and binaries that are converted or copied. Converting a number counts as one. Not counted is what the
containers of an object do to add an element. What is not reached because of an exception is not counted. -/

namespace Srl.Typed

/-- `find_link` (Node.cpp:81-115): a round for each item up to the one that has the name, in which the name is compared -/
def findSteps {α : Type} (name : Bytes) : List (Bytes × α) → Nat
  | [] => 0
  | (n, _) :: xs => 1 + name.length + if n == name then 0 else findSteps name xs

/-- `Node::value(id)`, `Node::node(id)` (Node.cpp:166-195): the name is hashed (117-122), the item at a position is reached
by stepping over those in front of it (55-78). -/
def lookupSteps {α : Type} : Sel → List (Bytes × α) → Nat
  | .name n, xs => n.length + findSteps n xs
  | .index i, xs => if i < xs.length then i + 1 else 1

/-- `Switch<T>::Paste(o, value)`: one, and the bytes of a string or binary -/
def valSteps : Val → Nat
  | .str s => 1 + s.length
  | .bin s => 1 + s.length
  | _ => 1

/-- What is done after something that may throw -/
def thenSteps {α : Type} (r : Res α) (n : Nat) : Nat :=
  match r with
  | .ok _ => n
  | _ => 0

/-- A loop over the elements of a list (`mapRes`) -/
def mapSteps {α β : Type} (f : α → Res β) (g : α → Nat) : List α → Nat
  | [] => 0
  | x :: xs => 1 + g x + thenSteps (f x) (mapSteps f g xs)

/-- A loop over the elements of a list and of an array (`zipRes`) -/
def zipSteps {α : Type} (f : Obj → α → Res Obj) (g : Obj → α → Nat) : List Obj → List α → Nat
  | _, [] => 0
  | [], _ :: _ => 0
  | o :: os, x :: xs => 1 + g o x + thenSteps (f o x) (zipSteps f g os xs)

mutual
/-- The steps of `pasteNode`, case by case: sequences (Resolve.hpp:494-530), arrays (589-603), classes (399-422), pairs
(637-644), tuples (664-681), pointers (703-721, 735-757), ordered containers (494-518, 532-567), tables (935-948), where
names are copied. -/
def nodeSteps (env : Env) : Ty → Obj → Node → Nat
  | .vec e, _, .mk _ vs ns => 1 +
      if e.isScope then mapSteps (fun p => pasteNode env e (dflt e) p.2) (fun p => nodeSteps env e (dflt e) p.2) ns
      else mapSteps (fun p => pasteVal env e (dflt e) p.2) (fun p => valSteps p.2) vs
  | .named e, _, .mk t vs ns =>
    if t ≠ .object then 1
    else 1 +
      if e.isScope then mapSteps (fun p => pasteNode env e (dflt e) p.2)
        (fun p => p.1.length + nodeSteps env e (dflt e) p.2) ns
      else mapSteps (fun p => pasteVal env e (dflt e) p.2) (fun p => p.1.length + valSteps p.2) vs
  | .arr n e, .many os, .mk _ vs ns =>
    if e.isScope then
      if ns.length ≠ n then 1
      else 1 + zipSteps (fun o p => pasteNode env e o p.2) (fun o p => nodeSteps env e o p.2) os ns
    else
      if vs.length ≠ n then 1
      else 1 + zipSteps (fun o p => pasteVal env e o p.2) (fun _ p => valSteps p.2) os vs
  | .record _ strict fs, .many os, .mk t vs ns =>
    if strict = true ∧ t ≠ .object then 1
    else 1 + fieldSteps env fs os 0 0 vs ns
  | .ptr _ e, _, n => 1 + nodeSteps env e (dflt e) n
  | .sorted _ c, _, n => 1 + nodeSteps env c (dflt c) n
  | _, _, _ => 1
/-- The steps of `pasteFields`: `Context::paste` (Context.hpp:61-86) with `has_node`/`has_value` (Node.cpp:664-679) for
optional members and `paste_field` (Node.hpp:105-130) -/
def fieldSteps (env : Env) : Fields → List Obj → Nat → Nat → List (Bytes × Val) → List (Bytes × Node) → Nat
  | .nil, _, _, _, _, _ => 0
  | .cons _ _ _ _, [], _, _, _, _ => 0
  | .cons name opt ty rest, o :: os, ni, vi, vs, ns =>
    if ty.isScope then
      (if opt = true then findSteps name ns else 0) +
      if opt = true ∧ (findName name ns).isNone then 1 + fieldSteps env rest os ni vi vs ns
      else 1 + lookupSteps (.of name ni) ns +
        match lookup (.of name ni) ns with
        | .ok n => nodeSteps env ty o n +
          thenSteps (pasteNode env ty o n) (fieldSteps env rest os (ni + 1) vi vs ns)
        | _ => 0
    else
      (if opt = true then findSteps name vs else 0) +
      if opt = true ∧ (findName name vs).isNone then 1 + fieldSteps env rest os ni vi vs ns
      else 1 + lookupSteps (.of name vi) vs +
        match lookup (.of name vi) vs with
        | .ok v => valSteps v +
          thenSteps (pasteVal env ty o v) (fieldSteps env rest os ni (vi + 1) vs ns)
        | _ => 0
end

/-- `tree.root().paste(o)` or `tree.root().paste_field(0, o)` of a loaded tree (Tree.hpp:15-42) -/
def unwrapSteps (env : Env) (ty : Ty) (old : Obj) (r : Root) : Nat :=
  if ty.isScope then nodeSteps env ty old r.node
  else match r.node with
    | .mk _ vs _ => lookupSteps (.index 0) vs +
      match lookup (.index 0) vs with
      | .ok v => valSteps v
      | _ => 0

end Srl.Typed
