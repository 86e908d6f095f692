import Verif.Model.Shared
import Verif.Model.Reuse

/-! # Tree objects and the state they keep between calls (src/lib/Tree.cpp, src/lib/Environment.cpp,
include/Srl/Tree.hpp, include/Srl/Node.hpp)

The state is that of `Environment`: the flag `parsing`, the pointer to the parser used last, the table of
addresses of shared objects; and the root node. Not modelled: `Tree::restore` and `unpack`, moving trees,
what the output object does with bytes that no call returns. -/

namespace Srl.TreeApi
open Shared (Seen insertShared keyName)

/-- A parser object: `Parser::clear`, `Parser::write` on the output so far, `Parser::read` on a memory
source (include/Srl/Parser.h:14-21). -/
structure Fmt (P : Type) where
  clear : P → P
  write : P × Bytes → Event → Res (P × Bytes)
  read : P × Bytes → Res (Event × P × Bytes)

/-- What functions that store an object do (`Switch<T>::Insert`, `srl_store`, `Node::insert`): insert
values, open scopes, store shared pointers, insert copies of nodes or lists, or throw, as conversion of strings and polymorphic pointers do
(ToolsStrConv.cpp:323-375, Registration.h). -/
inductive Act where
  /-- `Node::insert_value` -/
  | value (name : Bytes) (v : Val)
  /-- `Node::open_scope`, `Node::insert` of a `ScopeWrap` (Node.hpp:42-57) -/
  | scope (name : Bytes) (t : ScopeTy) (body : List Act)
  /-- `Switch<shared_ptr>::Insert` of a pointer to address `a`; `body` stores the object -/
  | shared (name : Bytes) (a : Nat) (body : List Act)
  /-- `Node::insert` of a node of this tree or another one (Node.hpp:59-64) -/
  | node (name : Bytes) (n : Node)
  /-- `Node::insert` of an initializer list (Node.hpp:26-34); `body` inserts the elements -/
  | list (name : Bytes) (body : List Act)
  | fail

/-- State while acts are performed: parser (`none` if it does not exist any more), bytes written, table
of shared objects, fields of the node inserted into. -/
structure Work (P : Type) where
  parser : Option P
  out : Bytes
  seen : Seen
  values : List (Bytes × Val)
  nodes : List (Bytes × Node)

variable {P : Type}

/-- Statements in order: the second is not reached if the first throws. -/
def andThen {S : Type} (x : Res Unit × S) (f : S → Res Unit × S) : Res Unit × S :=
  match x with
  | (.ok _, s) => f s
  | r => r

/-- `Environment::write` (Environment.cpp:145-148, 164-194), the conversion of strings left out. What a
parser that throws leaves behind is cleared before its next use, so it is not followed. -/
def emit (fmt : Fmt P) (e : Event) (w : Work P) : Res Unit × Work P :=
  match w.parser with
  | none => (.ub, w)
  | some p =>
    match fmt.write (p, w.out) e with
    | .ok (p, out) => (.ok (), { w with parser := some p, out := out })
    | .err => (.err, w)
    | .ub => (.ub, w)
    | .fuel => (.fuel, w)

/-- `Node::insert_value` (Node.cpp:146-154) -/
def insertValue (fmt : Fmt P) (parsing : Bool) (name : Bytes) (v : Val) (w : Work P) : Res Unit × Work P :=
  if parsing then emit fmt ⟨name, .val v⟩ w
  else (.ok (), { w with values := w.values ++ [(name, v)] })

/-- `Node::open_scope` (Node.hpp:139-154) with `insert_node` of an empty node (Node.cpp:156-164,
Environment.cpp:86-122); `f` is the function `Insert`. -/
def openScope (fmt : Fmt P) (parsing : Bool) (name : Bytes) (t : ScopeTy)
    (f : Work P → Res Unit × Work P) (w : Work P) : Res Unit × Work P :=
  if parsing then
    andThen (andThen (emit fmt ⟨name, .scope t⟩ w) f) (emit fmt ⟨[], .scopeEnd⟩)
  else
    let r := f { w with values := [], nodes := [] }
    (r.1, { r.2 with values := w.values, nodes := w.nodes ++ [(name, .mk t r.2.values r.2.nodes)] })

/-- `Node::insert_shared` (Node.cpp:537-545), followed by the rest of `Switch<shared_ptr>::Insert`, which
takes whether the address is known and its key. -/
def withShared (cfg : HTable.Cfg Nat) (a : Nat) (f : Bool → Nat → Work P → Res Unit × Work P)
    (w : Work P) : Res Unit × Work P :=
  match insertShared cfg w.seen a with
  | .ok (known, key, seen) => f known key { w with seen := seen }
  | .err => (.err, w)
  | .ub => (.ub, w)
  | .fuel => (.fuel, w)

/-- Tokens written one after the other -/
def emitL (fmt : Fmt P) : List Event → Work P → Res Unit × Work P
  | [], w => (.ok (), w)
  | e :: es, w => andThen (emit fmt e w) (emitL fmt es)

/-- `Node::insert_node` of a node (Node.cpp:156-159) with `Environment::store_node`
(Environment.cpp:86-122): written with all it contains, or copied. -/
def insertNode (fmt : Fmt P) (parsing : Bool) (name : Bytes) (n : Node) (w : Work P) : Res Unit × Work P :=
  if parsing then emitL fmt (n.events name) w
  else (.ok (), { w with nodes := w.nodes ++ [(name, n)] })

/-- `Node::insert` of an initializer list (Node.hpp:26-34): the elements are inserted into the node that
`insert_node` returns, but while storing that node is written, with its end, before there are any. -/
def insertList (fmt : Fmt P) (parsing : Bool) (name : Bytes) (f : Work P → Res Unit × Work P) (w : Work P) :
    Res Unit × Work P :=
  if parsing then andThen (insertNode fmt true name (.mk .array [] []) w) f
  else openScope fmt false name .array f w

mutual
/-- One act. For shared pointers Resolve.hpp:765-782. -/
def perform (cfg : HTable.Cfg Nat) (fmt : Fmt P) (parsing : Bool) : Act → Work P → Res Unit × Work P
  | .value name v, w => insertValue fmt parsing name v w
  | .scope name t body, w => openScope fmt parsing name t (performL cfg fmt parsing body) w
  | .shared name a body, w =>
    withShared cfg a (fun known key => openScope fmt parsing name .object fun w =>
      andThen (insertValue fmt parsing keyName (.int .u64 key) w) fun w =>
        if known then (.ok (), w) else performL cfg fmt parsing body w) w
  | .node name n, w => insertNode fmt parsing name n w
  | .list name body, w => insertList fmt parsing name (performL cfg fmt parsing body) w
  | .fail, w => (.err, w)
def performL (cfg : HTable.Cfg Nat) (fmt : Fmt P) (parsing : Bool) : List Act → Work P → Res Unit × Work P
  | [], w => (.ok (), w)
  | a :: as, w => andThen (perform cfg fmt parsing a w) (performL cfg fmt parsing as)
end

/-- The state of a tree object between calls. -/
structure Tree (P : Type) where
  parsing : Bool
  parser : Option P
  out : Bytes
  seen : Seen
  name : Bytes
  type : ScopeTy
  values : List (Bytes × Val)
  nodes : List (Bytes × Node)

/-- A tree object with the environment it creates on first use (Tree.cpp:117-127, Environment.h:44-58).
Before `set_output` or `set_input` there is no parser. -/
def Tree.new : Tree P := ⟨false, none, [], Seen.new, [], .object, [], []⟩

/-- `Tree::clear` (Tree.cpp:105-115) with `Environment::clear` (Environment.cpp:220-226): the flag
`parsing` stays as it is. -/
def Tree.clear (t : Tree P) : Tree P :=
  { t with seen := HTable.clear t.seen, name := [], values := [], nodes := [] }

def Tree.work (t : Tree P) : Work P := ⟨t.parser, t.out, t.seen, t.values, t.nodes⟩

def Tree.take (t : Tree P) (w : Work P) : Tree P :=
  { t with parser := w.parser, out := w.out, seen := w.seen, values := w.values, nodes := w.nodes }

/-- The parser given to a call exists after the call only if the caller keeps it; by default it is a
temporary (Tree.h:36-60). -/
def drop (keep : Bool) (t : Tree P) : Tree P := if keep then t else { t with parser := none }

/-- `Tree::to_source` with a function that stores (Tree.cpp:52-69) -/
def storeWith (cfg : HTable.Cfg Nat) (fmt : Fmt P) (p : P) (type : ScopeTy) (acts : List Act)
    (t : Tree P) : Res Bytes × Tree P :=
  let t := { t with parser := some (fmt.clear p), out := [], parsing := true }
  let r := andThen (andThen (emit fmt ⟨t.name, .scope type⟩ t.work) (performL cfg fmt true acts))
    (emit fmt ⟨[], .scopeEnd⟩)
  match r with
  | (.ok _, w) => (.ok w.out, { t.take w with parsing := false })
  | (.err, w) => (.err, t.take w)
  | (.ub, w) => (.ub, t.take w)
  | (.fuel, w) => (.fuel, t.take w)

/-- Successive calls of `Parser::write` -/
def writeAll (fmt : Fmt P) : P × Bytes → List Event → Res (P × Bytes)
  | x, [] => .ok x
  | x, e :: es => do
    let x ← fmt.write x e
    writeAll fmt x es

/-- `Tree::to_source(parser)` (Tree.hpp:81-97, Node.hpp:183-201, Node.cpp:496-512): saves the tree. The
parser is cleared at the end. -/
def save (fmt : Fmt P) (p : P) (t : Tree P) : Res Bytes × Tree P :=
  match writeAll fmt (fmt.clear p, []) ((Node.mk t.type t.values t.nodes).events t.name) with
  | .ok (p, b) => (.ok b, { t with parser := some (fmt.clear p), out := b })
  | .err => (.err, { t with parser := some p })
  | .ub => (.ub, { t with parser := some p })
  | .fuel => (.fuel, { t with parser := some p })

/-- State while reading: parser, source, output of the last call that wrote -/
structure Reading (P : Type) where
  parser : P
  source : Bytes
  out : Bytes

/-- The part of `Environment::store_node` (Environment.cpp:88-105) for an empty node if `parsing` is set:
start and end of the scope are written with the parser that reads. -/
def writeEmpty (fmt : Fmt P) (name : Bytes) (t : ScopeTy) (s : Reading P) : Res (Reading P) := do
  let (p, out) ← fmt.write (s.parser, s.out) ⟨name, .scope t⟩
  let (p, out) ← fmt.write (p, out) ⟨[], .scopeEnd⟩
  .ok ⟨p, s.source, out⟩

/-- `Node::read_source` (Node.cpp:246-277) with `Environment::store_node` (Environment.cpp:86-122): the
result, what the node has then, and the state. If `parsing` is set, scopes are read into nodes that belong
to nothing. -/
def readScope (fmt : Fmt P) (parsing : Bool) :
    Nat → Nat → Reading P → Res Unit × Doc.Content × Reading P
  | 0, _, s => (.fuel, ([], []), s)
  | fuel + 1, depth, s =>
    match fmt.read (s.parser, s.source) with
    | .err => (.err, ([], []), s)
    | .ub => (.ub, ([], []), s)
    | .fuel => (.fuel, ([], []), s)
    | .ok (e, p, src) =>
      let s := ⟨p, src, s.out⟩
      match e.tok with
      | .scopeEnd => (.ok (), ([], []), s)
      | .val v =>
        let r := readScope fmt parsing fuel depth s
        (r.1, ((e.name, v) :: r.2.1.1, r.2.1.2), r.2.2)
      | .scope t =>
        if depth + 1 > maxDepth then (.err, ([], []), s)
        else if parsing then
          match writeEmpty fmt e.name t s with
          | .err => (.err, ([], []), s)
          | .ub => (.ub, ([], []), s)
          | .fuel => (.fuel, ([], []), s)
          | .ok s =>
            let c := readScope fmt parsing fuel (depth + 1) s
            match c.1 with
            | .ok _ => readScope fmt parsing fuel depth c.2.2
            | r => (r, ([], []), c.2.2)
        else
          let c := readScope fmt parsing fuel (depth + 1) s
          let n : Node := .mk t c.2.1.1 c.2.1.2
          match c.1 with
          | .ok _ =>
            let r := readScope fmt parsing fuel depth c.2.2
            (r.1, (r.2.1.1, (e.name, n) :: r.2.1.2), r.2.2)
          | r => (r, ([], [(e.name, n)]), c.2.2)

/-- Result of a call that returns nothing -/
def noBytes : Res Unit → Res Bytes
  | .ok _ => .ok []
  | .err => .err
  | .ub => .ub
  | .fuel => .fuel

/-- `Tree::load_source` (Tree.hpp:99-115, Tree.cpp:30-50, 71-75) -/
def load (fmt : Fmt P) (p : P) (fuel : Nat) (s : Bytes) (t : Tree P) : Res Bytes × Tree P :=
  let t := { t.clear with parser := some (fmt.clear p) }
  match fmt.read (fmt.clear p, s) with
  | .err => (.err, t)
  | .ub => (.ub, t)
  | .fuel => (.fuel, t)
  | .ok (e, p, s) =>
    match e.tok with
    | .scope ty =>
      let r := readScope fmt t.parsing fuel 0 ⟨p, s, t.out⟩
      (noBytes r.1, { t with parser := some r.2.2.parser, out := r.2.2.out, name := e.name, type := ty,
                             values := r.2.1.1, nodes := r.2.1.2 })
    | _ => (.err, t)

/-- Calls of a program on a tree object. -/
inductive Op (P : Type) where
  /-- `Tree::store`: a parser, whether the caller keeps it, type of the root, what storing does -/
  | store (p : P) (keep : Bool) (type : ScopeTy) (acts : List Act)
  /-- `Tree::pack` (Tree.hpp:48-69) -/
  | pack (p : P) (keep : Bool) (acts : List Act)
  /-- `tree.root().insert(...)` (Node.hpp:14-58) -/
  | insert (acts : List Act)
  /-- `Tree::to_source` -/
  | save (p : P) (keep : Bool)
  /-- `Tree::load_source` -/
  | load (p : P) (keep : Bool) (fuel : Nat) (s : Bytes)
  /-- `Tree::clear` -/
  | clear

/-- One call: what the caller gets (bytes, an exception) and the tree after it. -/
def step (cfg : HTable.Cfg Nat) (fmt : Fmt P) (t : Tree P) : Op P → Res Bytes × Tree P
  | .store p keep type acts =>
    let r := storeWith cfg fmt p type acts t
    (r.1, drop keep r.2)
  | .pack p keep acts =>
    let r := storeWith cfg fmt p .object acts t.clear
    (r.1, drop keep r.2)
  | .insert acts =>
    let r := performL cfg fmt t.parsing acts t.work
    (noBytes r.1, t.take r.2)
  | .save p keep =>
    let r := save fmt p t
    (r.1, drop keep r.2)
  | .load p keep fuel s =>
    let r := load fmt p fuel s t
    (r.1, drop keep r.2)
  | .clear => (.ok [], t.clear)

/-- A sequence of calls; exceptions are caught by the caller. -/
def run (cfg : HTable.Cfg Nat) (fmt : Fmt P) : Tree P → List (Op P) → List (Res Bytes) × Tree P
  | t, [] => ([], t)
  | t, op :: ops =>
    let r := step cfg fmt t op
    let rs := run cfg fmt r.2 ops
    (r.1 :: rs.1, rs.2)

/-! ## The formats -/

/-- `PSrl` with all its members; `scale` as in `HTable.Cfg` -/
def srl (m : Mem) (scale : Nat → Nat) : Fmt PSrl.Obj where
  clear := PSrl.Obj.clear
  write x e := do
    let (o, b) ← x.1.write (PSrl.nameCfg scale) e
    .ok (o, x.2 ++ b)
  read := PSrl.Obj.read m

/-- `PMsgPack` with all its members -/
def msgpack (m : Mem) : Fmt PMsgPack.Obj where
  clear := PMsgPack.Obj.clear
  write x e := do
    let (scopes, out) ← PMsgPack.write (x.1.scopes, x.2) e
    .ok (⟨scopes, x.1.buffer⟩, out)
  read := PMsgPack.Obj.read m

/-- `PJson`. The members used for reading and those used for writing are kept apart here; in the code
`scope_stack` and `scope_type` serve both (PJson.h:24-30). -/
def json (m : Mem) (strtod : Bytes → Option UInt64) (dtoa : UInt64 → Bytes) (compact : Bool) :
    Fmt (PJson.Rd × PJson.Wr) where
  clear p := (p.1.clear, PJson.Wr.new)
  write x e := do
    let (b, w) ← PJson.write dtoa compact x.1.2 e
    .ok ((x.1.1, w), x.2 ++ b)
  read x := do
    let (e, r, s) ← PJson.read m strtod (x.1.1, x.2)
    .ok (e, (r, x.1.2), s)

end Srl.TreeApi
