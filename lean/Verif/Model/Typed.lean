import Verif.Model.Apply
import Verif.Model.Doc
import Verif.Model.PJson
import Verif.Model.Base64

/-! # Storing and restoring C++ objects (include/Srl/Resolve.hpp, Context.hpp, Node.hpp, Tree.hpp,
src/lib/Node.cpp)

C++ types are described by `Ty`, objects by `Obj`. Strings are `std::string`s in UTF-8. Not in the
universe: character arrays, `long double` members, shared pointers and polymorphic pointers. Tables and unordered
containers are represented by their entries in ascending order. -/

namespace Srl.Typed

/-- Raw pointers and `std::unique_ptr`. -/
inductive PtrKind where
  | raw | unique
  deriving DecidableEq, Repr

/-- Containers with an order of their own: whether it is that of the first members of the elements (maps), and whether
elements of the same key are kept (`std::multiset`, `std::multimap`). -/
structure Order where
  byKey : Bool
  multi : Bool
  deriving DecidableEq, Repr

mutual
/-- C++ types with a `Switch` (Resolve.hpp). -/
inductive Ty where
  | bool
  | int (t : IntTy)
  | float
  | double
  /-- `std::string` -/
  | str
  /-- `Srl::Bytes`, and vectors of `uint8_t` in a `VecWrap` (BitWrap.h:37-69) -/
  | bytes
  /-- `std::vector` and other sequences (Resolve.hpp:468-530) -/
  | vec (e : Ty)
  /-- the entries of a table, in the order in which they are inserted (Resolve.hpp:918-957): an object with a field
  for each. An entry is the sequence of its name and its value. -/
  | named (e : Ty)
  /-- arrays of constant length (Resolve.hpp:570-614) -/
  | arr (n : Nat) (e : Ty)
  /-- Classes with `srl_resolve` (`object`, Resolve.hpp:360-422), `std::pair` (`object`, with the
  fields `first` and `second` and a check of the scope type: `strict`, Resolve.hpp:616-645) and
  `std::tuple` (`array`, empty names, Resolve.hpp:647-685). -/
  | record (scope : ScopeTy) (strict : Bool) (fs : Fields)
  | ptr (k : PtrKind) (e : Ty)
  /-- `std::set`, `std::map` and their multi and unordered variants, where `c` is the sequence of their elements: like
  sequences, but the elements are added with `insert` and `emplace` (Resolve.hpp:532-567). The elements of maps are
  stored and restored like a class with the members `key` and `value` (553-566, 625-635). Tables (`HTable`) with
  entries `c`; `insert` keeps the first value as `emplace` does (Hash.hpp:146-196). What has no order in C++ is
  ascending here; unordered multi-containers are what differs by `Enumerates true` only (Props/TypedEnumSpec.lean). -/
  | sorted (b : Order) (c : Ty)
/-- The calls `ctx(name, member, flags)` of `srl_resolve`, in order: name, `CtxFlags::Optional`,
type of the member. -/
inductive Fields where
  | nil
  | cons (name : Bytes) (opt : Bool) (ty : Ty) (rest : Fields)
end

/-- C++ objects. -/
inductive Obj where
  | bool (b : Bool)
  | int (v : Int)
  | float (f : UInt32)
  | double (d : UInt64)
  /-- strings and binaries -/
  | str (s : Bytes)
  /-- elements of a sequence or array, or members -/
  | many (xs : List Obj)
  /-- null pointer -/
  | null
  /-- pointer to an object of its own -/
  | ref (o : Obj)
  deriving Repr

namespace Ty

/-- `TpTools::is_scope(Switch<T>::type)` -/
def isScope : Ty → Bool
  | bool => false
  | int _ => false
  | float => false
  | double => false
  | str => false
  | bytes => false
  | vec _ => true
  | named _ => true
  | arr _ _ => true
  | record _ _ _ => true
  | ptr _ e => isScope e
  | sorted _ c => isScope c

/-- `Switch<T>::type` for scopes -/
def scopeTy : Ty → ScopeTy
  | record t _ _ => t
  | named _ => .object
  | ptr _ e => scopeTy e
  | sorted _ c => scopeTy c
  | _ => .array

end Ty

mutual
/-- `Ctor<T>::Create()`, `T()` (Resolve.h:18-22). Members are taken to be zero, empty or null. -/
def dflt : Ty → Obj
  | .bool => .bool false
  | .int _ => .int 0
  | .float => .float 0
  | .double => .double 0
  | .str => .str []
  | .bytes => .str []
  | .vec _ => .many []
  | .named _ => .many []
  | .arr n e => .many (List.replicate n (dflt e))
  | .record _ _ fs => .many (dfltL fs)
  | .ptr _ _ => .null
  | .sorted _ c => dflt c
def dfltL : Fields → List Obj
  | .nil => []
  | .cons _ _ ty rest => dflt ty :: dfltL rest
end

/-! ## Ordered containers -/

mutual
/-- The order of `std::less` on integers, truth values, strings (bytes compared as `unsigned char`), and the
lexicographic one on sequences, pairs and tuples. Other objects are no keys (`Ty.Ok`). -/
def cmp : Obj → Obj → Ordering
  | .bool a, .bool b => compare a.toNat b.toNat
  | .int a, .int b => compare a b
  | .str a, .str b => cmpBytes a b
  | .many a, .many b => cmpL a b
  | _, _ => .eq
def cmpL : List Obj → List Obj → Ordering
  | [], [] => .eq
  | [], _ :: _ => .lt
  | _ :: _, [] => .gt
  | a :: as, b :: bs => match cmp a b with
    | .eq => cmpL as bs
    | o => o
def cmpBytes : Bytes → Bytes → Ordering
  | [], [] => .eq
  | [], _ :: _ => .lt
  | _ :: _, [] => .gt
  | a :: as, b :: bs => match compare a.toNat b.toNat with
    | .eq => cmpBytes as bs
    | o => o
end

/-- What elements are ordered by: `first` in maps. -/
def keyOf (byKey : Bool) (x : Obj) : Obj :=
  if byKey then match x with
    | .many (k :: _) => k
    | x => x
  else x

/-- `emplace`, and `insert` with the end as hint, of `std::map` and `std::set`: nothing happens if the key is there.
Those of `std::multimap` and `std::multiset` put the element behind those with the same key. -/
def emplace (b : Order) (x : Obj) : List Obj → List Obj
  | [] => [x]
  | y :: ys => match cmp (keyOf b.byKey x) (keyOf b.byKey y) with
    | .lt => x :: y :: ys
    | .eq => if b.multi then y :: emplace b x ys else y :: ys
    | .gt => y :: emplace b x ys

/-- The container with the given elements added in turn (Resolve.hpp:494-518, 532-567) -/
def collect (b : Order) : Obj → Obj
  | .many xs => .many (xs.foldl (fun acc x => emplace b x acc) [])
  | o => o

/-! ## Storing -/

/-- The name and the value of an entry of a table -/
def entry : Obj → Bytes × Obj
  | .many [.str k, y] => (k, y)
  | o => ([], o)

mutual
/-- `Switch<T>::Insert(o, node, name)` as the item written or added to the node: numbers and strings
(Resolve.hpp:88-92, 293-297), sequences (474-484, 521-524), arrays (577-587), members in their order
(373-397, 619-635, 652-662; Context.hpp:55-59), pointers (694-701, 729-733, 1071-1081), binaries (842-852, 905-909),
ordered containers (474-484, 537-539, 553-555), tables (921-932). -/
def toItem : Bytes → Ty → Obj → Item
  | name, .bool, .bool b => .val name (.bool b)
  | name, .int t, .int v => .val name (.int t v)
  | name, .float, .float f => .val name (.fp32 f)
  | name, .double, .double d => .val name (Fp.ofDouble d)
  | name, .str, .str s => .val name (.str s)
  | name, .bytes, .str s => .val name (.bin s)
  | name, .vec e, .many xs => .scope name .array (xs.map (fun x => toItem [] e x))
  | name, .named e, .many xs => .scope name .object (xs.map (fun x => toItem (entry x).1 e (entry x).2))
  | name, .arr _ e, .many xs => .scope name .array (xs.map (fun x => toItem [] e x))
  | name, .record t _ fs, .many xs => .scope name t (fieldItems fs xs)
  | name, .ptr _ e, .ref o => toItem name e o
  | name, .sorted _ c, o => toItem name c o
  | name, _, _ => .val name .null
def fieldItems : Fields → List Obj → List Item
  | .cons name _ ty rest, x :: xs => toItem name ty x :: fieldItems rest xs
  | _, _ => []
end

/-- `Tree::store` (Tree.hpp:117-131, 15-42, Tree.cpp:52-69) with a root without name: scopes become
the root, other values its field `value`. -/
def rootItem (ty : Ty) (o : Obj) : Item :=
  if ty.isScope then toItem [] ty o
  else .scope [] .object [toItem (str "value") ty o]

/-! ## Restoring from values -/

/-- `strtod` applied to a whole text and the text `fpconv_dtoa` gives for a double. -/
structure Env where
  strtod : Bytes → Option UInt64
  dtoa : UInt64 → Bytes

/-- `Switch<T>::Paste(o, value)`: numbers (Resolve.hpp:299-340), strings (102-122; the size of a
scalar is that of its type, line 117), binaries (854-883, 911-916), pointers (703-721, 735-757). A null value leaves
a string as it is. Types stored as scopes are not restored from values. -/
def pasteVal (env : Env) : Ty → Obj → Val → Res Obj
  | .bool, _, v => do
    let i ← Apply.paste env.strtod .bool v
    .ok (.bool (i != 0))
  | .int t, _, v => do
    let i ← Apply.paste env.strtod (.int t) v
    .ok (.int i)
  | .float, _, v => do
    let f ← Apply.pasteFp env.strtod Apply.toFloat v
    .ok (.float f)
  | .double, _, v => do
    let d ← Apply.pasteFp env.strtod Apply.toDouble v
    .ok (.double d)
  | .str, old, v =>
    match v with
    | .null => .ok old
    | .str s => .ok (.str s)
    | .bin _ => .err
    | v => match PJson.scalarText env.dtoa v with
      | some r => do
        let s ← r
        .ok (.str s)
      | none => .err
  | .bytes, _, v =>
    match v with
    | .bin s => .ok (.str s)
    | .str s => do
      let s ← Base64.restoreBinary s
      .ok (.str s)
    | _ => .err
  | .ptr k e, _, v =>
    if k = .raw ∧ v = .null then .ok .null
    else do
      let o ← pasteVal env e (dflt e) v
      .ok (.ref o)
  | _, _, _ => .err

/-! ## Restoring from a node read completely -/

/-- `find_link<Hash | Name>` (Node.cpp:81-115) -/
def findName {α : Type} (name : Bytes) : List (Bytes × α) → Option α
  | [] => none
  | (n, x) :: xs => if n == name then some x else findName name xs

/-- Names and positions identify fields (`paste_field` with a `String` or a `size_t`). -/
inductive Sel where
  | name (n : Bytes)
  | index (i : Nat)

/-- Names of size 0 mean positions (Context.hpp:78-83). -/
def Sel.of (name : Bytes) (i : Nat) : Sel := if name = [] then .index i else .name name

/-- `Node::value(id)`, `Node::node(id)` (Node.cpp:166-195) -/
def lookup {α : Type} : Sel → List (Bytes × α) → Res α
  | .name n, xs => match findName n xs with
    | some x => .ok x
    | none => .err
  | .index i, xs => match xs[i]? with
    | some x => .ok x.2
    | none => .err

/-- A loop over the elements of a list. -/
def mapRes {α β : Type} (f : α → Res β) : List α → Res (List β)
  | [] => .ok []
  | x :: xs => do
    let y ← f x
    let ys ← mapRes f xs
    .ok (y :: ys)

/-- A loop over the elements of a list that pastes each into an element of an array. -/
def zipRes {α : Type} (f : Obj → α → Res Obj) : List Obj → List α → Res (List Obj)
  | os, [] => .ok os
  | [], _ :: _ => .ub
  | o :: os, x :: xs => do
    let y ← f o x
    let ys ← zipRes f os xs
    .ok (y :: ys)

mutual
/-- `Switch<T>::Paste(o, node)` for a node with `parsed` set: sequences (Resolve.hpp:494-530), arrays
(589-603), classes (399-422), pairs (637-644), tuples (664-681), pointers (703-721, 735-757), ordered containers
(494-518, 532-567), tables (935-948).
`check_type_scope` always holds of a node. -/
def pasteNode (env : Env) : Ty → Obj → Node → Res Obj
  | .vec e, _, .mk _ vs ns => do
    let ys ← if e.isScope then mapRes (fun p => pasteNode env e (dflt e) p.2) ns
      else mapRes (fun p => pasteVal env e (dflt e) p.2) vs
    .ok (.many ys)
  | .named e, _, .mk t vs ns =>
    if t ≠ .object then .err
    else do
      let ys ← if e.isScope then mapRes (fun p => do
          let y ← pasteNode env e (dflt e) p.2
          .ok (.many [.str p.1, y])) ns
        else mapRes (fun p => do
          let y ← pasteVal env e (dflt e) p.2
          .ok (.many [.str p.1, y])) vs
      .ok (.many ys)
  | .arr n e, .many os, .mk _ vs ns =>
    if e.isScope then
      if ns.length ≠ n then .err
      else do
        let ys ← zipRes (fun o p => pasteNode env e o p.2) os ns
        .ok (.many ys)
    else
      if vs.length ≠ n then .err
      else do
        let ys ← zipRes (fun o p => pasteVal env e o p.2) os vs
        .ok (.many ys)
  | .record _ strict fs, .many os, .mk t vs ns =>
    if strict = true ∧ t ≠ .object then .err
    else do
      let ys ← pasteFields env fs os 0 0 vs ns
      .ok (.many ys)
  | .ptr _ e, _, n => do
    let o ← pasteNode env e (dflt e) n
    .ok (.ref o)
  | .sorted b c, _, n => do
    let o ← pasteNode env c (dflt c) n
    .ok (collect b o)
  | _, _, _ => .ub
/-- The calls of `Context::paste` (Context.hpp:61-86) with `paste_field` (Node.hpp:105-130) and
`has_node`/`has_value` (Node.cpp:664-679); `ni` and `vi` are `nodes_index` and `values_index`. -/
def pasteFields (env : Env) : Fields → List Obj → Nat → Nat → List (Bytes × Val) →
    List (Bytes × Node) → Res (List Obj)
  | .nil, _, _, _, _, _ => .ok []
  | .cons _ _ _ _, [], _, _, _, _ => .ub
  | .cons name opt ty rest, o :: os, ni, vi, vs, ns =>
    if ty.isScope then
      if opt = true ∧ (findName name ns).isNone then do
        let ys ← pasteFields env rest os ni vi vs ns
        .ok (o :: ys)
      else do
        let n ← lookup (.of name ni) ns
        let y ← pasteNode env ty o n
        let ys ← pasteFields env rest os (ni + 1) vi vs ns
        .ok (y :: ys)
    else
      if opt = true ∧ (findName name vs).isNone then do
        let ys ← pasteFields env rest os ni vi vs ns
        .ok (o :: ys)
      else do
        let v ← lookup (.of name vi) vs
        let y ← pasteVal env ty o v
        let ys ← pasteFields env rest os ni (vi + 1) vs ns
        .ok (y :: ys)
end

/-- `tree.root().paste(o)` or `tree.root().paste_field(0, o)` of a loaded tree (Tree.hpp:15-42). -/
def unwrap (env : Env) (ty : Ty) (old : Obj) (r : Root) : Res Obj :=
  if ty.isScope then pasteNode env ty old r.node
  else match r.node with
    | .mk _ vs _ => do
      let v ← lookup (.index 0) vs
      pasteVal env ty old v

/-! ## Restoring while reading -/

variable {σ : Type}

/-- A node that is being read: what has been read of it and not been taken out, and `parsed`. -/
structure LNode where
  type : ScopeTy
  values : List (Bytes × Val)
  nodes : List (Bytes × Node)
  parsed : Bool

namespace LNode

/-- `Node(tree, type, false)` (Node.h:112-114) -/
def fresh (t : ScopeTy) : LNode := ⟨t, [], [], false⟩

def addValue (n : LNode) (name : Bytes) (v : Val) : LNode :=
  { n with values := n.values ++ [(name, v)] }

def addNode (n : LNode) (name : Bytes) (x : Node) : LNode :=
  { n with nodes := n.nodes ++ [(name, x)] }

end LNode

/-- Taking a stored field out: `find_link_iterator` with a name, the first one with a position
(Node.cpp:331-337, 375-381, 420-426, 460-466). -/
def takeOut {α : Type} : Sel → List (Bytes × α) → Option ((Bytes × α) × List (Bytes × α))
  | .index _, [] => none
  | .index _, x :: xs => some (x, xs)
  | .name _, [] => none
  | .name n, x :: xs =>
    if x.1 == n then some (x, xs)
    else match takeOut (.name n) xs with
      | some (y, ys) => some (y, x :: ys)
      | none => none

/-- Whether a field just read is the one looked for (Node.cpp:354, 398, 440, 479). -/
def Sel.hits : Sel → Bytes → Bool
  | .name n, x => n == x
  | .index _, _ => true

/-- The loops of `consume_node` (Node.cpp:341-364, 429-449): other fields are stored, scopes with all
they contain. Gives the name and the type of the scope found, whose content is not yet read. -/
def seekNode (read : σ → Res (Event × σ)) :
    Nat → Sel → LNode → σ → Res (Option (Bytes × ScopeTy) × LNode × σ)
  | 0, _, _, _ => .fuel
  | fuel + 1, sel, n, s =>
    if n.parsed then .ok (none, n, s)
    else do
      let (e, s) ← read s
      match e.tok with
      | .scopeEnd => .ok (none, { n with parsed := true }, s)
      | .scope t =>
        if sel.hits e.name then .ok (some (e.name, t), n, s)
        else do
          let ((vs, ns), s) ← Doc.readScope read fuel 0 s
          seekNode read fuel sel (n.addNode e.name (.mk t vs ns)) s
      | .val v => seekNode read fuel sel (n.addValue e.name v) s

/-- The loops of `consume_value` (Node.cpp:385-408, 468-487) -/
def seekValue (read : σ → Res (Event × σ)) :
    Nat → Sel → LNode → σ → Res (Option (Bytes × Val) × LNode × σ)
  | 0, _, _, _ => .fuel
  | fuel + 1, sel, n, s =>
    if n.parsed then .ok (none, n, s)
    else do
      let (e, s) ← read s
      match e.tok with
      | .scopeEnd => .ok (none, { n with parsed := true }, s)
      | .scope t => do
        let ((vs, ns), s) ← Doc.readScope read fuel 0 s
        seekValue read fuel sel (n.addNode e.name (.mk t vs ns)) s
      | .val v =>
        if sel.hits e.name then .ok (some (e.name, v), n, s)
        else seekValue read fuel sel (n.addValue e.name v) s

/-- `consume_node` (Node.cpp:329-371, 418-456): a stored node, or one to be read from the source;
`none` if there is none, where the callers either throw or notice that `parsed` is set. With its name, which only
tables use. -/
def consumeNode (read : σ → Res (Event × σ)) (fuel : Nat) (sel : Sel) (n : LNode) (s : σ) :
    Res (Option (Bytes × LNode) × LNode × σ) :=
  match takeOut sel n.nodes with
  | some ((nm, .mk t vs ns), rest) => .ok (some (nm, ⟨t, vs, ns, true⟩), { n with nodes := rest }, s)
  | none => do
    let (r, n, s) ← seekNode read fuel sel n s
    .ok (r.map (fun x => (x.1, LNode.fresh x.2)), n, s)

/-- `consume_value` (Node.cpp:373-415, 458-494) -/
def consumeValue (read : σ → Res (Event × σ)) (fuel : Nat) (sel : Sel) (n : LNode) (s : σ) :
    Res (Option (Bytes × Val) × LNode × σ) :=
  match takeOut sel n.values with
  | some (v, rest) => .ok (some v, { n with values := rest }, s)
  | none => seekValue read fuel sel n s

/-- The loop of `consume_item(name, false)` (Node.cpp:295-320): everything read is stored. Says whether
the field found is a node. -/
def seekItem (read : σ → Res (Event × σ)) : Nat → Bytes → LNode → σ → Res (Option Bool × LNode × σ)
  | 0, _, _, _ => .fuel
  | fuel + 1, name, n, s =>
    if n.parsed then .ok (none, n, s)
    else do
      let (e, s) ← read s
      match e.tok with
      | .scopeEnd => .ok (none, { n with parsed := true }, s)
      | .scope t => do
        let ((vs, ns), s) ← Doc.readScope read fuel 0 s
        let n := n.addNode e.name (.mk t vs ns)
        if e.name == name then .ok (some true, n, s) else seekItem read fuel name n s
      | .val v =>
        let n := n.addValue e.name v
        if e.name == name then .ok (some false, n, s) else seekItem read fuel name n s

/-- `has_node`, `has_value` (Node.cpp:664-684) with `consume_item` (279-327) -/
def has (read : σ → Res (Event × σ)) (fuel : Nat) (node : Bool) (name : Bytes) (n : LNode) (s : σ) :
    Res (Bool × LNode × σ) :=
  if n.parsed then
    .ok (if node then (findName name n.nodes).isSome else (findName name n.values).isSome, n, s)
  else if (findName name n.nodes).isSome then .ok (node, n, s)
  else if (findName name n.values).isSome then .ok (!node, n, s)
  else do
    let (r, n, s) ← seekItem read fuel name n s
    .ok (r == some node, n, s)

/-- `Node::consume_scope` (Node.cpp:514-535) from `depth` on, of a node not read to its end. -/
def skipScope (read : σ → Res (Event × σ)) : Nat → Int → σ → Res σ
  | 0, _, _ => .fuel
  | fuel + 1, depth, s => do
    let (e, s) ← read s
    match e.tok with
    | .scope _ => skipScope read fuel (depth + 1) s
    | .scopeEnd => if depth - 1 ≤ 0 then .ok s else skipScope read fuel (depth - 1) s
    | .val _ => skipScope read fuel depth s

/-- `Node::consume_scope` (Node.cpp:514-535) -/
def finish (read : σ → Res (Event × σ)) (fuel : Nat) (n : LNode) (s : σ) : Res σ :=
  if n.parsed then .ok s else skipScope read fuel 0 s

/-- The loop of a sequence or table of scopes (Resolve.hpp:507-516, 950-960); `f` restores one element and closes it. -/
def vecNodes (read : σ → Res (Event × σ)) (total : Nat) (f : Bytes × LNode → σ → Res (Obj × σ)) :
    Nat → LNode → σ → Res (List Obj × LNode × σ)
  | 0, _, _ => .fuel
  | fuel + 1, n, s => do
    let (c, n, s) ← consumeNode read total (.index 0) n s
    if n.parsed then .ok ([], n, s)
    else match c with
      | none => .ub
      | some c => do
        let (y, s) ← f c s
        let (ys, n, s) ← vecNodes read total f fuel n s
        .ok (y :: ys, n, s)

/-- The loop of a sequence or table of values (Resolve.hpp:507-516, 950-960) -/
def vecValues (read : σ → Res (Event × σ)) (total : Nat) (f : Bytes × Val → Res Obj) :
    Nat → LNode → σ → Res (List Obj × LNode × σ)
  | 0, _, _ => .fuel
  | fuel + 1, n, s => do
    let (c, n, s) ← consumeValue read total (.index 0) n s
    if n.parsed then .ok ([], n, s)
    else match c with
      | none => .ub
      | some v => do
        let y ← f v
        let (ys, n, s) ← vecValues read total f fuel n s
        .ok (y :: ys, n, s)

/-- The loop of an array of scopes over its elements (Resolve.hpp:605-612, Node.hpp:113-115) -/
def arrNodes (read : σ → Res (Event × σ)) (total : Nat) (f : Obj → LNode → σ → Res (Obj × σ)) :
    List Obj → LNode → σ → Res (List Obj × LNode × σ)
  | [], n, s => .ok ([], n, s)
  | o :: os, n, s =>
    if n.parsed then .err
    else do
      let (c, n, s) ← consumeNode read total (.index 0) n s
      match c with
      | none => .err
      | some (_, c) => do
        let (y, s) ← f o c s
        let (ys, n, s) ← arrNodes read total f os n s
        .ok (y :: ys, n, s)

/-- The loop of an array of values over its elements (Resolve.hpp:605-612, Node.hpp:127-128) -/
def arrValues (read : σ → Res (Event × σ)) (total : Nat) (f : Obj → Val → Res Obj) :
    List Obj → LNode → σ → Res (List Obj × LNode × σ)
  | [], n, s => .ok ([], n, s)
  | o :: os, n, s =>
    if n.parsed then .err
    else do
      let (c, n, s) ← consumeValue read total (.index 0) n s
      match c with
      | none => .err
      | some (_, v) => do
        let y ← f o v
        let (ys, n, s) ← arrValues read total f os n s
        .ok (y :: ys, n, s)

mutual
/-- `Switch<T>::Paste(o, node)` for any node (citations at `pasteNode`); `fuel` bounds the number of
tokens of the source. -/
def paste (env : Env) (read : σ → Res (Event × σ)) (fuel : Nat) :
    Ty → Obj → LNode → σ → Res (Obj × LNode × σ)
  | .vec e, old, n, s =>
    if n.parsed then do
      let o ← pasteNode env (.vec e) old (.mk n.type n.values n.nodes)
      .ok (o, n, s)
    else if e.isScope then do
      let (ys, n, s) ← vecNodes read fuel (fun c s => do
        let (y, c, s) ← paste env read fuel e (dflt e) c.2 s
        let s ← finish read fuel c s
        .ok (y, s)) fuel n s
      .ok (.many ys, n, s)
    else do
      let (ys, n, s) ← vecValues read fuel (fun v => pasteVal env e (dflt e) v.2) fuel n s
      .ok (.many ys, n, s)
  | .named e, old, n, s =>
    if n.type ≠ .object then .err
    else if n.parsed then do
      let o ← pasteNode env (.named e) old (.mk n.type n.values n.nodes)
      .ok (o, n, s)
    else if e.isScope then do
      let (ys, n, s) ← vecNodes read fuel (fun c s => do
        let (y, d, s) ← paste env read fuel e (dflt e) c.2 s
        let s ← finish read fuel d s
        .ok (.many [.str c.1, y], s)) fuel n s
      .ok (.many ys, n, s)
    else do
      let (ys, n, s) ← vecValues read fuel (fun v => do
        let y ← pasteVal env e (dflt e) v.2
        .ok (.many [.str v.1, y])) fuel n s
      .ok (.many ys, n, s)
  | .arr k e, .many os, n, s =>
    if n.parsed then do
      let o ← pasteNode env (.arr k e) (.many os) (.mk n.type n.values n.nodes)
      .ok (o, n, s)
    else if e.isScope then do
      let (ys, n, s) ← arrNodes read fuel (fun o c s => do
        let (y, c, s) ← paste env read fuel e o c s
        let s ← finish read fuel c s
        .ok (y, s)) os n s
      .ok (.many ys, n, s)
    else do
      let (ys, n, s) ← arrValues read fuel (fun o v => pasteVal env e o v) os n s
      .ok (.many ys, n, s)
  | .record _ strict fs, .many os, n, s =>
    if strict = true ∧ n.type ≠ .object then .err
    else do
      let (ys, n, s) ← pasteMembers env read fuel fs os 0 0 n s
      .ok (.many ys, n, s)
  | .ptr _ e, _, n, s => do
    let (o, n, s) ← paste env read fuel e (dflt e) n s
    .ok (.ref o, n, s)
  | .sorted b c, _, n, s => do
    let (o, n, s) ← paste env read fuel c (dflt c) n s
    .ok (collect b o, n, s)
  | _, _, _, _ => .ub
/-- The calls of `Context::paste` (Context.hpp:61-86) with `paste_field` (Node.hpp:105-130): fields of a
node read to its end are looked up, otherwise they are taken out or read. -/
def pasteMembers (env : Env) (read : σ → Res (Event × σ)) (fuel : Nat) :
    Fields → List Obj → Nat → Nat → LNode → σ → Res (List Obj × LNode × σ)
  | .nil, _, _, _, n, s => .ok ([], n, s)
  | .cons _ _ _ _, [], _, _, _, _ => .ub
  | .cons name opt ty rest, o :: os, ni, vi, n, s => do
    let (here, n, s) ← (if opt then has read fuel ty.isScope name n s else .ok (true, n, s))
    if here = false then do
      let (ys, n, s) ← pasteMembers env read fuel rest os ni vi n s
      .ok (o :: ys, n, s)
    else if ty.isScope then
      if n.parsed then do
        let c ← lookup (.of name ni) n.nodes
        let y ← pasteNode env ty o c
        let (ys, n, s) ← pasteMembers env read fuel rest os (ni + 1) vi n s
        .ok (y :: ys, n, s)
      else do
        let (c, n, s) ← consumeNode read fuel (.of name ni) n s
        match c with
        | none => .err
        | some (_, c) => do
          let (y, c, s) ← paste env read fuel ty o c s
          let s ← finish read fuel c s
          let (ys, n, s) ← pasteMembers env read fuel rest os (ni + 1) vi n s
          .ok (y :: ys, n, s)
    else
      if n.parsed then do
        let v ← lookup (.of name vi) n.values
        let y ← pasteVal env ty o v
        let (ys, n, s) ← pasteMembers env read fuel rest os ni (vi + 1) n s
        .ok (y :: ys, n, s)
      else do
        let (c, n, s) ← consumeValue read fuel (.of name vi) n s
        match c with
        | none => .err
        | some (_, v) => do
          let y ← pasteVal env ty o v
          let (ys, n, s) ← pasteMembers env read fuel rest os ni (vi + 1) n s
          .ok (y :: ys, n, s)
end

/-- `Tree::restore` (Tree.hpp:133-158, 15-42; Tree.cpp:30-50, 77-83): the root is not read to its end. -/
def restore (env : Env) (read : σ → Res (Event × σ)) (fuel : Nat) (ty : Ty) (old : Obj) (s : σ) :
    Res (Obj × σ) := do
  let (e, s) ← read s
  match e.tok with
  | .scope t =>
    if ty.isScope then do
      let (o, _, s) ← paste env read fuel ty old (.fresh t) s
      .ok (o, s)
    else do
      let (c, _, s) ← consumeValue read fuel (.index 0) (.fresh t) s
      match c with
      | none => .err
      | some (_, v) => do
        let o ← pasteVal env ty old v
        .ok (o, s)
  | _ => .err

/-- `Tree::load_source` followed by `paste` of the root. -/
def loadUnwrap (env : Env) (read : σ → Res (Event × σ)) (fuel : Nat) (ty : Ty) (old : Obj) (s : σ) :
    Res Obj := do
  let (r, _) ← Doc.load read fuel s
  unwrap env ty old r

end Srl.Typed
