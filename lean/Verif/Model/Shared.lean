import Verif.Model.Typed
import Verif.Model.HTable

/-! # Shared and weak pointers (include/Srl/Resolve.hpp:760-836, src/lib/Node.cpp:537-559)

Types that contain `std::shared_ptr` are described by `GTy`; everything without shared pointers is
`plain` and handled by `Srl.Typed`. Objects held by shared pointers have addresses and classes, and a
class table gives the type of each class, so that types may refer to themselves. A `std::weak_ptr` is
stored as the shared pointer that `lock` returns, a null pointer if its object is gone, and is assigned
the shared pointer that is restored (Resolve.hpp:823-835). Not in the universe: polymorphic pointees, optional members of types with shared pointers, and tuples,
constant-length arrays or unique pointers that contain shared pointers. -/

namespace Srl.Shared
open Typed

mutual
/-- C++ types that may contain shared pointers. -/
inductive GTy where
  | plain (ty : Ty)
  /-- sequences of scopes (Resolve.hpp:468-530) -/
  | vec (e : GTy)
  /-- classes with `srl_resolve` (Resolve.hpp:360-422) -/
  | record (fs : GFields)
  /-- `std::shared_ptr` to an object of a class (Resolve.hpp:760-763), or `std::weak_ptr` (819-821) -/
  | shared (weak : Bool) (c : Nat)
/-- The calls `ctx(name, member)` of `srl_resolve`, in order. -/
inductive GFields where
  | nil
  | cons (name : Bytes) (ty : GTy) (rest : GFields)
end

namespace GTy

/-- `TpTools::is_scope(Switch<T>::type)` -/
def isScope : GTy → Bool
  | plain ty => ty.isScope
  | _ => true

/-- `Switch<T>::type` for scopes -/
def scopeTy : GTy → ScopeTy
  | plain ty => ty.scopeTy
  | vec _ => .array
  | _ => .object

end GTy

/-- The pointer to the object at an address. -/
def addr (a : Nat) : Obj := .ref (.int (.ofNat a))

mutual
/-- `Ctor<T>::Create()`, `T()` (Resolve.h:18-22). Members are taken to be zero, empty or null. -/
def dfltG : GTy → Obj
  | .plain ty => dflt ty
  | .vec _ => .many []
  | .record fs => .many (dfltGL fs)
  | .shared _ _ => .null
def dfltGL : GFields → List Obj
  | .nil => []
  | .cons _ ty rest => dfltG ty :: dfltGL rest
end

/-- What lies in memory behind the shared pointers: class and value of the object at each address. -/
structure Graph where
  cls : Nat → Nat
  obj : Nat → Obj

/-! ## Storing -/

/-- `Environment::shared_table_store` (Environment.h:51) -/
abbrev Seen := HTable.Tbl Nat Nat

/-- `HTable(16)` (Environment.h:51) -/
def Seen.new : Seen := HTable.new 16

/-- `Node::insert_shared` (Node.cpp:537-545): whether the address is known, and its key -/
def insertShared (cfg : HTable.Cfg Nat) (t : Seen) (a : Nat) : Res (Bool × Nat × Seen) := do
  let (t', known, _, key) ← HTable.insert cfg t a t.elements
  .ok (known, key, t')

/-- `Aux::str_shared_key` (Resolve.hpp:21) -/
def keyName : Bytes := str "srl_shared_key"

/-- `Aux::str_shared_value` (Resolve.hpp:21) -/
def valueName : Bytes := str "srl_shared_value"

/-- The loop over the elements of a sequence (Resolve.hpp:474-484) -/
def eachObj (f : Obj → Seen → Res (Item × Seen)) : List Obj → Seen → Res (List Item × Seen)
  | [], t => .ok ([], t)
  | x :: xs, t => do
    let (i, t) ← f x t
    let (is, t) ← eachObj f xs t
    .ok (i :: is, t)

/-- The members in their order (Resolve.hpp:373-397, Context.hpp:55-59) -/
def eachField (f : Bytes → GTy → Obj → Seen → Res (Item × Seen)) :
    GFields → List Obj → Seen → Res (List Item × Seen)
  | .nil, _, t => .ok ([], t)
  | .cons _ _ _, [], _ => .ub
  | .cons name ty rest, x :: xs, t => do
    let (i, t) ← f name ty x t
    let (is, t) ← eachField f rest xs t
    .ok (i :: is, t)

/-- `Switch<T>::Insert(o, node, name)` (Resolve.hpp:765-782 for shared pointers) as the item written or
added to the node. `fuel` bounds the depth of the recursion. -/
def store (cfg : HTable.Cfg Nat) (C : Nat → GTy) (G : Graph) :
    Nat → Bytes → GTy → Obj → Seen → Res (Item × Seen)
  | 0, _, _, _, _ => .fuel
  | _ + 1, name, .plain ty, o, t => .ok (toItem name ty o, t)
  | fuel + 1, name, .vec e, .many xs, t => do
    let (is, t) ← eachObj (store cfg C G fuel [] e) xs t
    .ok (.scope name .array is, t)
  | fuel + 1, name, .record fs, .many xs, t => do
    let (is, t) ← eachField (store cfg C G fuel) fs xs t
    .ok (.scope name .object is, t)
  | _ + 1, name, .shared _ _, .null, t => .ok (.val name .null, t)
  | fuel + 1, name, .shared _ c, .ref (.int (.ofNat a)), t => do
    let (known, key, t) ← insertShared cfg t a
    if known then .ok (.scope name .object [.val keyName (.int .u64 key)], t)
    else do
      let (i, t) ← store cfg C G fuel valueName (C c) (G.obj a) t
      .ok (.scope name .object [.val keyName (.int .u64 key), i], t)
  | _, _, _, _, _ => .ub

/-! ## Restoring -/

/-- `Environment::shared_table_restore` (Environment.h:52), from keys to addresses, and the objects
created for shared pointers: the class of each and its value, the address being the position. -/
structure Objs where
  table : HTable.Tbl Nat Nat
  heap : List (Nat × Obj)

def Objs.new : Objs := ⟨HTable.new 16, []⟩

variable {σ : Type}

/-- A node read to its end -/
def whole : Node → LNode
  | .mk t vs ns => ⟨t, vs, ns, true⟩

/-- `Node::paste_field` (Node.hpp:105-130): `f` restores from a node, `g` from a value. -/
def pasteField (read : σ → Res (Event × σ)) (total : Nat) (scope : Bool) (sel : Sel)
    (f : LNode → σ × Objs → Res (Obj × LNode × σ × Objs)) (g : Val → Res Obj)
    (n : LNode) (s : σ × Objs) : Res (Obj × LNode × σ × Objs) :=
  if scope then
    if n.parsed then do
      let c ← lookup sel n.nodes
      let (y, _, s) ← f (whole c) s
      .ok (y, n, s)
    else do
      let (c, n, t) ← consumeNode read total sel n s.1
      match c with
      | none => .err
      | some (_, c) => do
        let (y, c, s) ← f c (t, s.2)
        let t ← finish read total c s.1
        .ok (y, n, t, s.2)
  else
    if n.parsed then do
      let v ← lookup sel n.values
      let y ← g v
      .ok (y, n, s)
    else do
      let (c, n, t) ← consumeValue read total sel n s.1
      match c with
      | none => .err
      | some (_, v) => do
        let y ← g v
        .ok (y, n, t, s.2)

/-- The loop over the nodes of a sequence read to its end (Resolve.hpp:502-505) -/
def eachNode (f : LNode → σ × Objs → Res (Obj × LNode × σ × Objs)) :
    List (Bytes × Node) → σ × Objs → Res (List Obj × σ × Objs)
  | [], s => .ok ([], s)
  | x :: xs, s => do
    let (y, _, s) ← f (whole x.2) s
    let (ys, s) ← eachNode f xs s
    .ok (y :: ys, s)

/-- The loop of a sequence of scopes that is being read (Resolve.hpp:507-516) -/
def nextNodes (read : σ → Res (Event × σ)) (total : Nat)
    (f : LNode → σ × Objs → Res (Obj × LNode × σ × Objs)) :
    Nat → LNode → σ × Objs → Res (List Obj × LNode × σ × Objs)
  | 0, _, _ => .fuel
  | fuel + 1, n, s => do
    let (c, n, t) ← consumeNode read total (.index 0) n s.1
    if n.parsed then .ok ([], n, t, s.2)
    else match c with
      | none => .ub
      | some (_, c) => do
        let (y, c, s) ← f c (t, s.2)
        let t ← finish read total c s.1
        let (ys, n, s) ← nextNodes read total f fuel n (t, s.2)
        .ok (y :: ys, n, s)

/-- The calls of `Context::paste` (Context.hpp:61-86) -/
def eachMember (h : Bytes → GTy → Obj → LNode → σ × Objs → Res (Obj × LNode × σ × Objs)) :
    GFields → List Obj → LNode → σ × Objs → Res (List Obj × LNode × σ × Objs)
  | .nil, _, n, s => .ok ([], n, s)
  | .cons _ _ _, [], _, _ => .ub
  | .cons name ty rest, o :: os, n, s => do
    let (y, n, s) ← h name ty o n s
    let (ys, n, s) ← eachMember h rest os n s
    .ok (y :: ys, n, s)

/-- `Switch<T>::Paste(o, value)` for types that are not scopes -/
def valueOf (env : Env) : GTy → Obj → Val → Res Obj
  | .plain ty, old, v => pasteVal env ty old v
  | _, _, _ => .ub

/-- `std::static_pointer_cast<E>(*sptr)` (Resolve.hpp:796-798): the pointer is used as one to class `c`;
undefined if the object is of another class. -/
def castTo (c a : Nat) (heap : List (Nat × Obj)) : Res Obj :=
  match heap[a]? with
  | some (c', _) => if c' = c then .ok (addr a) else .ub
  | none => .ub

/-- `Switch<T>::Paste(o, node)`, for shared pointers Resolve.hpp:784-816 with `Node::find_shared`
(Node.cpp:547-559). `fuel` bounds the depth of the recursion, `total` the number of tokens. -/
def paste (cfg : HTable.Cfg Nat) (env : Env) (C : Nat → GTy) (read : σ → Res (Event × σ)) (total : Nat) :
    Nat → GTy → Obj → LNode → σ × Objs → Res (Obj × LNode × σ × Objs)
  | 0, _, _, _, _ => .fuel
  | _ + 1, .plain ty, old, n, s => do
    let (o, n, t) ← Typed.paste env read total ty old n s.1
    .ok (o, n, t, s.2)
  | fuel + 1, .vec e, _, n, s =>
    if n.parsed then do
      let (ys, s) ← eachNode (paste cfg env C read total fuel e (dfltG e)) n.nodes s
      .ok (.many ys, n, s)
    else do
      let (ys, n, s) ← nextNodes read total (paste cfg env C read total fuel e (dfltG e)) total n s
      .ok (.many ys, n, s)
  | fuel + 1, .record fs, .many os, n, s => do
    let (ys, n, s) ← eachMember (fun name ty o => pasteField read total ty.isScope (.name name)
      (paste cfg env C read total fuel ty o) (valueOf env ty o)) fs os n s
    .ok (.many ys, n, s)
  | fuel + 1, .shared _ c, _, n, s => do
    let (k, n, s) ← pasteField read total false (.name keyName) (fun _ _ => .ub)
      (pasteVal env (.int .u64) (.int 0)) n s
    match k with
    | .int (.ofNat key) => do
      let found ← HTable.get cfg s.2.table key
      match found with
      | some (_, a) => do
        let p ← castTo c a s.2.heap
        .ok (p, n, s)
      | none => do
        let (o, n, s) ← pasteField read total (C c).isScope (.name valueName)
          (paste cfg env C read total fuel (C c) (dfltG (C c))) (valueOf env (C c) (dfltG (C c))) n s
        let a := s.2.heap.length
        let (table, _) ← HTable.insert cfg s.2.table key a
        .ok (addr a, n, s.1, ⟨table, s.2.heap ++ [(c, o)]⟩)
    | _ => .ub
  | _, _, _, _, _ => .ub

/-- `Tree::restore` of a scope (Tree.hpp:133-158, 15-42; Tree.cpp:30-50, 77-83) -/
def restore (cfg : HTable.Cfg Nat) (env : Env) (C : Nat → GTy) (read : σ → Res (Event × σ)) (fuel : Nat)
    (ty : GTy) (old : Obj) (s : σ) : Res (Obj × List (Nat × Obj)) := do
  let (e, s) ← read s
  match e.tok with
  | .scope t => do
    let (o, _, s) ← paste cfg env C read fuel fuel ty old (.fresh t) (s, Objs.new)
    .ok (o, s.2.heap)
  | _ => .err

/-- `Tree::load_source` followed by `paste` of the root. -/
def loadUnwrap (cfg : HTable.Cfg Nat) (env : Env) (C : Nat → GTy) (read : σ → Res (Event × σ))
    (fuel : Nat) (ty : GTy) (old : Obj) (s : σ) : Res (Obj × List (Nat × Obj)) := do
  let (r, s) ← Doc.load read fuel s
  let (o, _, s) ← paste cfg env C read fuel fuel ty old (whole r.node) (s, Objs.new)
  .ok (o, s.2.heap)

end Srl.Shared
