import Verif.Model.Doc
import Verif.Model.Fnv

/-! # Access to the fields of a node (src/lib/Node.cpp, include/Srl/Union.hpp)

A node keeps two `std::list`s of links, one of values and one of child nodes. Both are handled by
the same templates, modelled here once for any kind of field. The address of a link is modelled by
a number never used before (`id`); the allocator may give the address of an erased link to a later
one, which the model does not follow. Names are UTF-8, the only encoding the library stores. -/

namespace Srl.NodeApi

/-- `Lib::Link<T>` (Environment.h:20-26), with the name the field points to (Environment.cpp:81)
and its address. -/
structure Link (α : Type) where
  id : Nat
  hash : UInt64
  name : Bytes
  field : α

/-- `Lib::Items<T>` (Environment.h:28-29) and the next fresh address. -/
structure Items (α : Type) where
  next : Nat
  links : List (Link α)

namespace Items

variable {α : Type}

def empty : Items α := ⟨0, []⟩

/-- `Environment::create_link` (Environment.cpp:75-84): appends at the back. The hash comes from
`store_string` (Environment.cpp:50-73), where the empty name takes a precomputed one. -/
def create (name : Bytes) (x : α) (l : Items α) : Res (Items α) := do
  let h ← Fnv.hash name
  .ok ⟨l.next + 1, l.links ++ [⟨l.next, h, name, x⟩]⟩

/-- `find_link<Hash | Name>` (Node.cpp:49-54, 81-115): the first link with this hash and name. -/
def findHash (h : UInt64) (name : Bytes) : List (Link α) → Option (Link α)
  | [] => none
  | x :: xs => if x.hash == h && x.name == name then some x else findHash h name xs

/-- `find_link<Name>` (Node.cpp:46-47, 81-115) -/
def findName (name : Bytes) : List (Link α) → Option (Link α)
  | [] => none
  | x :: xs => if x.name == name then some x else findName name xs

/-- `find_link<Remove | Name>`: erases the first match and stops (Node.cpp:98-102). -/
def eraseName (name : Bytes) : List (Link α) → List (Link α)
  | [] => []
  | x :: xs => if x.name == name then xs else x :: eraseName name xs

/-- `find_link<Remove | Address>` (Node.cpp:56-57, 81-115) -/
def eraseId (id : Nat) : List (Link α) → List (Link α)
  | [] => []
  | x :: xs => if x.id == id then xs else x :: eraseId id xs

/-- `get_link_at_index` without `Remove` (Node.cpp:59-79) -/
def atIndex (i : Nat) (l : List (Link α)) : Option (Link α) :=
  if i < l.length then l[i]? else none

/-- `get_link_at_index<Remove>` (Node.cpp:59-79) -/
def eraseIndex (i : Nat) (l : List (Link α)) : List (Link α) :=
  if i < l.length then l.eraseIdx i else l

/-- Assignment through a reference into the list; the link must still be there. -/
def modify (id : Nat) (f : α → α) : List (Link α) → Res (List (Link α))
  | [] => .ub
  | x :: xs =>
    if x.id == id then .ok ({ x with field := f x.field } :: xs)
    else do
      let xs ← modify id f xs
      .ok (x :: xs)

/-- `Node::value(name)`, `Node::node(name)` (Node.cpp:166-182) -/
def get (name : Bytes) (l : Items α) : Res (Link α) := do
  let h ← Fnv.hash name
  match findHash h name l.links with
  | some x => .ok x
  | none => .err

/-- `Node::value(index)`, `Node::node(index)` (Node.cpp:185-195) -/
def getAt (i : Nat) (l : Items α) : Res (Link α) :=
  match atIndex i l.links with
  | some x => .ok x
  | none => .err

/-- Changes a program can make to one of the two lists of a node: `insert_value`/`insert_node`
(Node.cpp:146-164, outside of parsing), `remove_value`/`remove_node` by name, position and address
(Node.cpp:634-662), and assignment through a reference. -/
inductive Op (α : Type) where
  | insert (name : Bytes) (x : α)
  | removeName (name : Bytes)
  | removeAt (i : Nat)
  | removeId (id : Nat)
  | modify (id : Nat) (f : α → α)

def step (l : Items α) : Op α → Res (Items α)
  | .insert name x => create name x l
  | .removeName name => .ok { l with links := eraseName name l.links }
  | .removeAt i => .ok { l with links := eraseIndex i l.links }
  | .removeId id => .ok { l with links := eraseId id l.links }
  | .modify id f => do
    let ls ← modify id f l.links
    .ok { l with links := ls }

def run (l : Items α) : List (Op α) → Res (Items α)
  | [] => .ok l
  | op :: ops => do
    let l ← step l op
    run l ops

end Items

/-- The two lists of a `Srl::Node` (Node.h:116-118). -/
structure Fields (V N : Type) where
  values : Items V
  nodes : Items N

/-- `Srl::Union` (Union.h): a pointer to a node, a pointer to a value. -/
inductive Union (V N : Type) where
  | value (l : Link V)
  | node (l : Link N)

namespace Fields

variable {V N : Type}

/-- `Node::get(name)` (Node.cpp:220-231): values first, then nodes. -/
def get (name : Bytes) (n : Fields V N) : Res (Union V N) :=
  match Items.findName name n.values.links with
  | some l => .ok (.value l)
  | none =>
    match Items.findName name n.nodes.links with
    | some l => .ok (.node l)
    | none => .err

/-- `Node::get(index)` (Node.cpp:233-244): nodes first, then values with the same index. The result
of the second search is dereferenced without a test. -/
def getAt (i : Nat) (n : Fields V N) : Res (Union V N) :=
  match Items.atIndex i n.nodes.links with
  | some l => .ok (.node l)
  | none =>
    match Items.atIndex i n.values.links with
    | some l => .ok (.value l)
    | none => .ub

/-- `try { … } catch(...)` of `Node::try_get` (Node.cpp:198-218): exceptions become an empty result;
undefined behaviour stays what it is. -/
def attempt {α : Type} : Res α → Res (Option α)
  | .ok a => .ok (some a)
  | .err => .ok none
  | .ub => .ub
  | .fuel => .fuel

/-- `Node::try_get(name)` (Node.cpp:198-207) -/
def tryGet (name : Bytes) (n : Fields V N) : Res (Option (Union V N)) := attempt (n.get name)

/-- `Node::try_get(index)` (Node.cpp:209-218) -/
def tryGetAt (i : Nat) (n : Fields V N) : Res (Option (Union V N)) := attempt (n.getAt i)

/-- `Node::has_value(name)` of a node read completely (Node.cpp:675-679) -/
def hasValue (name : Bytes) (n : Fields V N) : Bool :=
  (Items.findName name n.values.links).isSome

/-- `Node::has_node(name)` of a node read completely (Node.cpp:664-668) -/
def hasNode (name : Bytes) (n : Fields V N) : Bool :=
  (Items.findName name n.nodes.links).isSome

end Fields

/-! ## Recursive enumeration

The visited items are identified by the positions passed on the way down from the node the search
begins at. -/

/-- Positions in the lists of child nodes, from the top. -/
abbrev Path := List Nat

mutual
/-- `Node::foreach_node(fnc, recursive)` (Node.cpp:561-571) at `path`; `fnc` is called with each
child and then, if `recursive`, with what is below that child. -/
def foreachNode {α : Type} (fnc : Path → Bytes → Node → List α) (rec : Bool) (path : Path) :
    Node → List α
  | .mk _ _ ns => foreachNodes fnc rec path 0 ns
/-- The loop over the links, from position `i` on. -/
def foreachNodes {α : Type} (fnc : Path → Bytes → Node → List α) (rec : Bool) (path : Path) :
    Nat → List (Bytes × Node) → List α
  | _, [] => []
  | i, (name, n) :: ns =>
    fnc (path ++ [i]) name n ++
      ((if rec then foreachNode fnc rec (path ++ [i]) n else []) ++
        foreachNodes fnc rec path (i + 1) ns)
end

/-- The loop of `Node::foreach_value` over the values of one node (Node.cpp:575-577) -/
def foreachVals {α : Type} (fnc : Path → Nat → Bytes → Val → List α) (path : Path) :
    Nat → List (Bytes × Val) → List α
  | _, [] => []
  | i, (name, v) :: vs => fnc path i name v ++ foreachVals fnc path (i + 1) vs

/-- `Node::foreach_value(fnc, recursive)` (Node.cpp:573-584) -/
def foreachValue {α : Type} (fnc : Path → Nat → Bytes → Val → List α) (rec : Bool) (n : Node) :
    List α :=
  match n with
  | .mk t vs ns =>
    foreachVals fnc [] 0 vs ++
      (if rec then
        foreachNode (fun p _ m => match m with | .mk _ ws _ => foreachVals fnc p 0 ws) true []
          (.mk t vs ns)
      else [])

/-- `Node::all_nodes` (Node.cpp:612-621) -/
def allNodes (rec : Bool) (n : Node) : List (Path × Bytes × Node) :=
  foreachNode (fun p name m => [(p, name, m)]) rec [] n

/-- `Node::all_values` (Node.cpp:623-632) -/
def allValues (rec : Bool) (n : Node) : List (Path × Nat × Bytes × Val) :=
  foreachValue (fun p i name v => [(p, i, name, v)]) rec n

/-- `Node::find_nodes` (Node.cpp:586-597) -/
def findNodes (name : Bytes) (rec : Bool) (n : Node) : List (Path × Bytes × Node) :=
  foreachNode (fun p nm m => if nm == name then [(p, nm, m)] else []) rec [] n

/-- `Node::find_values` (Node.cpp:599-610) -/
def findValues (name : Bytes) (rec : Bool) (n : Node) : List (Path × Nat × Bytes × Val) :=
  foreachValue (fun p i nm v => if nm == name then [(p, i, nm, v)] else []) rec n

end Srl.NodeApi
