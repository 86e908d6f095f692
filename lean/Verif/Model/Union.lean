import Verif.Model.Typed

/-! # Unions (include/Srl/Union.h, Union.hpp, Resolve.hpp:261-273; src/lib/Node.cpp:198-231, 279-327)

A union points to a value or to a node of a tree. Here it is what it points to, so trees that change or go while a union is
kept are not covered. Positions as fields (`get(size_t)`) are in `Model/NodeApi.lean`. -/

namespace Srl.Typed

/-- `Union` (Union.h:15-71) -/
inductive Uni where
  | empty
  | value (v : Val)
  | node (n : Node)

/-- `Node::get(name)` (Node.cpp:220-231) of values and nodes: values come first. -/
def getFrom (name : Bytes) (vs : List (Bytes × Val)) (ns : List (Bytes × Node)) : Res Uni :=
  match findName name vs with
  | some v => .ok (.value v)
  | none => match findName name ns with
    | some n => .ok (.node n)
    | none => .err

namespace Uni

/-- `Union::get` (Union.hpp:68-88); `Tree::get` (Tree.cpp:93-97) for the union of the root. -/
def get (name : Bytes) : Uni → Res Uni
  | .empty => .err
  | .value _ => .err
  | .node (.mk _ vs ns) => getFrom name vs ns

/-- `catch(...)` giving an empty `std::optional` (Node.cpp:198-207, Union.hpp:163-170) -/
def attempt {α : Type} : Res α → Res (Option α)
  | .ok a => .ok (some a)
  | .err => .ok none
  | .ub => .ub
  | .fuel => .fuel

/-- `Union::try_get` (Union.hpp:90-96) with `Node::try_get` (Node.cpp:198-207); `Tree::try_get` (Tree.cpp:99-103) -/
def tryGet (name : Bytes) : Uni → Res (Option Uni)
  | .node (.mk _ vs ns) => attempt (getFrom name vs ns)
  | _ => .ok none

/-- `Union::copy_to` (Union.hpp:134-155): `old` is what the object was before. Exceptions become others of the same type
(15-41). -/
def copyTo (env : Env) (ty : Ty) (old : Obj) : Uni → Res Obj
  | .empty => .err
  | .value v => if ty.isScope then .err else pasteVal env ty old v
  | .node n => if ty.isScope then pasteNode env ty old n else .err

/-- `Union::unwrap`, and the conversion operator (Union.hpp:98-132, Node.hpp:74-81, Value.hpp:42-48) -/
def unwrap (env : Env) (ty : Ty) (u : Uni) : Res Obj := copyTo env ty (dflt ty) u

/-- `Union::unwrap_if` (Union.hpp:157-187) -/
def unwrapIf (env : Env) (ty : Ty) : Uni → Res (Option Obj)
  | .empty => .ok none
  | .value v => if ty.isScope then .ok none else attempt (pasteVal env ty (dflt ty) v)
  | .node n => if ty.isScope then attempt (pasteNode env ty (dflt ty) n) else .ok none

/-- `u.get(a).get(b)…` -/
def follow : List Bytes → Uni → Res Uni
  | [], u => .ok u
  | name :: names, u => do
    let u ← u.get name
    follow names u

end Uni

/-! ## Unpacking unions -/

variable {σ : Type}

/-- What is unpacked into: an object of a type with its value so far, or a union. -/
inductive Target where
  | obj (ty : Ty) (old : Obj)
  | union

/-- What has been unpacked. -/
inductive Got where
  | obj (o : Obj)
  | union (u : Uni)

/-- What `consume_item` has just stored (Node.cpp:308-318): the last value, or the last node. -/
def newest (n : LNode) : Option Bool → Res Uni
  | some true => match n.nodes.getLast? with
    | some x => .ok (.node x.2)
    | none => .ub
  | some false => match n.values.getLast? with
    | some x => .ok (.value x.2)
    | none => .ub
  | none => .err

/-- `Node::consume_item(name)` (Node.cpp:279-327): stored nodes come first. -/
def consumeItem (read : σ → Res (Event × σ)) (fuel : Nat) (name : Bytes) (n : LNode) (s : σ) : Res (Uni × LNode × σ) :=
  match findName name n.nodes with
  | some x => .ok (.node x, n, s)
  | none => match findName name n.values with
    | some v => .ok (.value v, n, s)
    | none => do
      let (r, n, s) ← seekItem read fuel name n s
      let u ← newest n r
      .ok (u, n, s)

/-- `Switch<Union>::Paste` (Resolve.hpp:261-273): from a node that is not read to its end, the rest of the node is skipped
afterwards. -/
def pasteUnion (read : σ → Res (Event × σ)) (fuel : Nat) (name : Bytes) (n : LNode) (s : σ) : Res (Uni × LNode × σ) :=
  if n.parsed then do
    let u ← getFrom name n.values n.nodes
    .ok (u, n, s)
  else do
    let (u, n, s) ← consumeItem read fuel name n s
    let s ← finish read fuel n s
    .ok (u, { n with parsed := true }, s)

/-- `Node::paste(name, item, …)` (Node.hpp:98-137): fields are always found by name here. -/
def pasteAll (env : Env) (read : σ → Res (Event × σ)) (fuel : Nat) :
    List (Bytes × Target) → LNode → σ → Res (List Got)
  | [], _, _ => .ok []
  | (name, .obj ty old) :: rest, n, s =>
    if ty.isScope then
      if n.parsed then do
        let c ← lookup (.name name) n.nodes
        let y ← pasteNode env ty old c
        let ys ← pasteAll env read fuel rest n s
        .ok (.obj y :: ys)
      else do
        let (c, n, s) ← consumeNode read fuel (.name name) n s
        match c with
        | none => .err
        | some (_, c) => do
          let (y, c, s) ← paste env read fuel ty old c s
          let s ← finish read fuel c s
          let ys ← pasteAll env read fuel rest n s
          .ok (.obj y :: ys)
    else
      if n.parsed then do
        let v ← lookup (.name name) n.values
        let y ← pasteVal env ty old v
        let ys ← pasteAll env read fuel rest n s
        .ok (.obj y :: ys)
      else do
        let (c, n, s) ← consumeValue read fuel (.name name) n s
        match c with
        | none => .err
        | some (_, v) => do
          let y ← pasteVal env ty old v
          let ys ← pasteAll env read fuel rest n s
          .ok (.obj y :: ys)
  | (name, .union) :: rest, n, s => do
    let (u, n, s) ← pasteUnion read fuel name n s
    let ys ← pasteAll env read fuel rest n s
    .ok (.union u :: ys)

/-- `Tree::unpack(in, parser, name, item, …)` (Tree.hpp:71-79, Tree.cpp:30-50) -/
def unpack (env : Env) (read : σ → Res (Event × σ)) (fuel : Nat) (qs : List (Bytes × Target)) (s : σ) : Res (List Got) := do
  let (e, s) ← read s
  match e.tok with
  | .scope t => pasteAll env read fuel qs (.fresh t) s
  | _ => .err

end Srl.Typed
