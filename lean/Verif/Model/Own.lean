import Verif.Basic

/-! # Memory of trees (src/lib/Environment.cpp, src/lib/Node.cpp, src/lib/Tree.cpp, include/Srl/Blocks.h)

Here names and values are not byte strings but pointers, as in `String` and `PackedBlock`, and each
environment has a heap that is given up when the tree is cleared, loaded again or destroyed. Reading
memory that was given up is undefined behaviour.

Simplifications: the blocks a heap hands out are numbered and not placed in segments (that they do not
overlap is C25); the table of strings is a list without duplicates (C23); list links that are erased are not
used again, and the local data of a value is part of the node. The flag `parsing` is not set (C38). -/

namespace Srl.Own

/-- Where a pointer leads: to memory of the caller, to memory of the parser that is used again by each
call of `Parser::read` (one piece for names, one for values), to block `i` of the heap of environment `e`
handed out after it was cleared `g` times, or to the local data of a value in a list that lives in that
heap. -/
inductive Ptr where
  | buf (b : Nat)
  | parserName
  | parserValue
  | heap (e g i : Nat)
  | link (e g : Nat) (d : Bytes)
  deriving DecidableEq, Repr

/-- `PackedBlock` (Blocks.h:25-67): data stored locally, or a pointer with a size. -/
inductive Block where
  | loc (d : Bytes)
  | ext (p : Ptr) (off len : Nat)
  deriving DecidableEq, Repr

/-- `name_ptr` (Value.h:49, Node.h:120): the null pointer, `Environment::EmptyString`, which lives as long
as the program, or entry `i` of the table of strings of environment `e` after it was cleared `g` times. -/
inductive NameRef where
  | null
  | empty
  | entry (e g i : Nat)
  deriving DecidableEq, Repr

/-- `Value` (Value.h:16-51); `kind` stands for type and encoding. -/
structure PVal where
  name : NameRef
  kind : Nat
  block : Block
  deriving DecidableEq, Repr

/-- `Node` (Node.h:17-163): pointer to the environment, which also gives the heap the lists live in,
how often that was cleared when the lists were made, type, name, values, nodes. -/
inductive PNode where
  | mk (env gen : Nat) (type : ScopeTy) (name : NameRef) (values : List PVal) (nodes : List PNode)

/-- What is used of `Environment` (Environment.h:40-82): blocks of the heap and the table of strings. -/
structure Env where
  alive : Bool
  gen : Nat
  data : List Bytes
  names : List Bytes

structure Mem where
  bufs : Nat → Option Bytes
  pname : Option Bytes
  pval : Option Bytes
  envs : List Env

/-- Content of a node, what users see of it. -/
inductive ANode where
  | mk (type : ScopeTy) (name : Bytes) (values : List (Bytes × Nat × Bytes)) (nodes : List ANode)

namespace PNode
def env : PNode → Nat | mk e _ _ _ _ _ => e
def gen : PNode → Nat | mk _ g _ _ _ _ => g
def nodes : PNode → List PNode | mk _ _ _ _ _ ns => ns
def values : PNode → List PVal | mk _ _ _ _ vs _ => vs
def type : PNode → ScopeTy | mk _ _ t _ _ _ => t
def name : PNode → NameRef | mk _ _ _ n _ _ => n
def addValue (v : PVal) : PNode → PNode | mk e g t n vs ns => mk e g t n (vs ++ [v]) ns
def addNode (c : PNode) : PNode → PNode | mk e g t n vs ns => mk e g t n vs (ns ++ [c])

/-- `node(i).node(j)…`: `Node::node(size_t)` for each step (Node.cpp:191-195); `none`: it throws. -/
def at? : List Nat → PNode → Option PNode
  | [], n => some n
  | i :: p, n => match n.nodes[i]? with
    | some c => at? p c
    | none => none

/-- Change of the node at a path. -/
def update (f : PNode → PNode) : List Nat → PNode → PNode
  | [], n => f n
  | i :: p, mk e g t m vs ns => match ns[i]? with
    | some c => mk e g t m vs (ns.set i (update f p c))
    | none => mk e g t m vs ns
end PNode

namespace Mem

/-- A pointer to an environment is dereferenced. -/
def env (m : Mem) (e : Nat) : Res Env :=
  match m.envs[e]? with
  | some v => if v.alive then .ok v else .ub
  | none => .ub

/-- The heap or the table of environment `e` is read through a pointer made after `g` clearings. -/
def envAt (m : Mem) (e g : Nat) : Res Env := do
  let v ← m.env e
  if v.gen = g then .ok v else .ub

def orUb {α : Type} : Option α → Res α
  | some d => .ok d
  | none => .ub

def get (m : Mem) : Ptr → Res Bytes
  | .buf b => orUb (m.bufs b)
  | .parserName => orUb m.pname
  | .parserValue => orUb m.pval
  | .heap e g i => do
    let v ← m.envAt e g
    orUb v.data[i]?
  | .link e g d => do
    let _ ← m.envAt e g
    .ok d

/-- The bytes of a block. -/
def read (m : Mem) : Block → Res Bytes
  | .loc d => .ok d
  | .ext p off len =>
    if len = 0 then .ok []
    else do
      let d ← m.get p
      if off + len ≤ d.length then .ok ((d.drop off).take len) else .ub

/-- `Value::name`, `Node::name` (Value.hpp:83-88, Node.hpp:213-218). -/
def nameOf (m : Mem) : NameRef → Res Bytes
  | .null => .ok []
  | .empty => .ok []
  | .entry e g i => do
    let v ← m.envAt e g
    orUb v.names[i]?

def setEnv (m : Mem) (e : Nat) (v : Env) : Mem := { m with envs := m.envs.set e v }

/-- Position of an equal string. -/
def find (d : Bytes) : List Bytes → Option Nat
  | [] => none
  | x :: xs => if x = d then some 0 else (find d xs).map (· + 1)

/-- `Environment::store_string` (Environment.cpp:50-73), without the conversion of encodings. -/
def storeString (m : Mem) (e : Nat) (d : Bytes) : Res (NameRef × Mem) :=
  if d = [] then .ok (.empty, m)
  else do
    let v ← m.env e
    match find d v.names with
    | some i => .ok (.entry e v.gen i, m)
    | none => .ok (.entry e v.gen v.names.length, m.setEnv e { v with names := v.names ++ [d] })

/-- `Environment::store_value` (Environment.cpp:133-143) with `create_link` (75-84) and
`try_store_local` (Blocks.h:52-66): data of more than 8 bytes is copied to the heap. -/
def storeValue (m : Mem) (e : Nat) (kind : Nat) (block : Block) (name : Bytes) : Res (PVal × Mem) := do
  let (n, m) ← m.storeString e name
  match block with
  | .loc d => .ok (⟨n, kind, .loc d⟩, m)
  | .ext p off len => do
    let d ← m.read (.ext p off len)
    if len ≤ 8 then .ok (⟨n, kind, .loc d⟩, m)
    else do
      let v ← m.env e
      .ok (⟨n, kind, .ext (.heap e v.gen v.data.length) 0 len⟩, m.setEnv e { v with data := v.data ++ [d] })

/-- A new node without fields: `create_link` of `Node(this->tree, type)` (Environment.cpp:75-84, 107;
Node.h:112-114). -/
def newNode (m : Mem) (e : Nat) (t : ScopeTy) (name : Bytes) : Res (PNode × Mem) := do
  let (n, m) ← m.storeString e name
  let v ← m.env e
  .ok (.mk e v.gen t n [] [], m)

/-- The values of a node of another environment (Environment.cpp:112-114). -/
def copyValues (m : Mem) (e : Nat) : List PVal → Res (List PVal × Mem)
  | [] => .ok ([], m)
  | v :: vs => do
    let name ← m.nameOf v.name
    let (w, m) ← m.storeValue e v.kind v.block name
    let (ws, m) ← m.copyValues e vs
    .ok (w :: ws, m)

mutual
/-- `Environment::store_node` (Environment.cpp:86-122) while no output is written: nodes of the same
environment are copied with their pointers by the copy constructor, those of another one are inserted
field by field. -/
def copyNode (m : Mem) (e : Nat) : PNode → Bytes → Res (PNode × Mem)
  | .mk e' g t _ vs ns, name => do
    let _ ← m.envAt e' g
    if e' ≠ e then do
      let (c, m) ← m.newNode e t name
      let (ns, m) ← m.copyNodes e ns
      let (vs, m) ← m.copyValues e vs
      .ok (.mk c.env c.gen t c.name vs ns, m)
    else do
      let (n, m) ← m.storeString e name
      .ok (.mk e' g t n vs ns, m)

def copyNodes (m : Mem) (e : Nat) : List PNode → Res (List PNode × Mem)
  | [] => .ok ([], m)
  | n :: ns => do
    let name ← m.nameOf n.name
    let (c, m) ← m.copyNode e n name
    let (cs, m) ← m.copyNodes e ns
    .ok (c :: cs, m)
end

/-- A value is read: name and data. -/
def viewValues (m : Mem) : List PVal → Res (List (Bytes × Nat × Bytes))
  | [] => .ok []
  | v :: vs => do
    let name ← m.nameOf v.name
    let d ← m.read v.block
    let rest ← m.viewValues vs
    .ok ((name, v.kind, d) :: rest)

mutual
/-- A user reads all of a node: its type and name, its values and its nodes (`Node::name`, `type`,
`foreach_value`, `foreach_node`: Node.cpp:561-582; `Value::name`, `data`, `size`). -/
def view (m : Mem) : PNode → Res ANode
  | .mk e g t n vs ns => do
    let _ ← m.envAt e g
    let name ← m.nameOf n
    let values ← m.viewValues vs
    let nodes ← m.viewNodes ns
    .ok (.mk t name values nodes)

def viewNodes (m : Mem) : List PNode → Res (List ANode)
  | [] => .ok []
  | n :: ns => do
    let a ← m.view n
    let as ← m.viewNodes ns
    .ok (a :: as)
end

mutual
/-- A node is written: `Node::to_source` (Node.cpp:496-512), which dereferences `name_ptr` itself at the
end of the scope. What is written is given as the content of a node. -/
def save (m : Mem) : PNode → Res ANode
  | .mk e g t n vs ns => do
    let _ ← m.envAt e g
    let name ← m.nameOf n
    let values ← m.viewValues vs
    let nodes ← m.saveNodes ns
    if n = .null then .ub else .ok (.mk t name values nodes)

def saveNodes (m : Mem) : List PNode → Res (List ANode)
  | [] => .ok []
  | n :: ns => do
    let a ← m.save n
    let as ← m.saveNodes ns
    .ok (a :: as)
end

/-- `Environment::clear` (Environment.cpp:220-226). -/
def clearEnv (m : Mem) (e : Nat) : Res Mem := do
  let v ← m.env e
  .ok (m.setEnv e { v with gen := v.gen + 1, data := [], names := [] })

/-- The destructor of `Environment`. -/
def destroyEnv (m : Mem) (e : Nat) : Res Mem := do
  let v ← m.env e
  .ok (m.setEnv e { v with alive := false, data := [], names := [] })

/-- A new environment (Tree.cpp:117-127). -/
def newEnv (m : Mem) : Nat × Mem :=
  (m.envs.length, { m with envs := m.envs ++ [⟨true, 0, [], []⟩] })

end Mem

/-- What a parser returns for a name or for the data of a value: a piece of the source itself
(`In::read_block` of a memory source), bytes it has put into its own buffer, or, for values, a number
stored in the value. -/
inductive Piece where
  | src (off len : Nat)
  | scratch (d : Bytes)
  | num (d : Bytes)
  deriving DecidableEq, Repr

/-- Fields in the order a parser returns them. -/
inductive Field where
  | val (name : Piece) (kind : Nat) (data : Piece)
  | scope (name : Piece) (type : ScopeTy) (fields : List Field)

namespace Mem

/-- Part of the source. -/
def part : Block → Nat → Nat → Block
  | .ext p off _, o, l => .ext p (off + o) l
  | .loc d, o, l => .loc ((d.drop o).take l)

/-- The parser returns a name. -/
def nameBlock (m : Mem) (src : Block) : Piece → Block × Mem
  | .src o l => (part src o l, m)
  | .scratch d => (.ext .parserName 0 d.length, { m with pname := some d })
  | .num d => (.loc d, m)

/-- The parser returns a value. -/
def valueBlock (m : Mem) (src : Block) : Piece → Block × Mem
  | .src o l => (part src o l, m)
  | .scratch d => (.ext .parserValue 0 d.length, { m with pval := some d })
  | .num d => (.loc d, m)

mutual
/-- One round of the loop of `Node::read_source` (Node.cpp:246-277) for a node of environment `e`. -/
def readField (m : Mem) (e : Nat) (src : Block) : Field → PNode → Res (PNode × Mem)
  | .val name kind data, n => do
    let (nb, m) := m.nameBlock src name
    let (vb, m) := m.valueBlock src data
    let d ← m.read nb
    let (v, m) ← m.storeValue e kind vb d
    .ok (n.addValue v, m)
  | .scope name t fs, n => do
    let (nb, m) := m.nameBlock src name
    let d ← m.read nb
    let (c, m) ← m.newNode e t d
    let (c, m) ← m.readFields e src fs c
    .ok (PNode.addNode c n, m)

def readFields (m : Mem) (e : Nat) (src : Block) : List Field → PNode → Res (PNode × Mem)
  | [], n => .ok (n, m)
  | f :: fs, n => do
    let (n, m) ← m.readField e src f n
    m.readFields e src fs n
end

end Mem

/-- Variables of a program: memory, trees (`none`: no environment yet), nodes held by value. -/
structure St where
  mem : Mem
  trees : Nat → Option (Nat × PNode)
  held : Nat → Option PNode

def St.init : St := ⟨⟨fun _ => none, none, none, []⟩, fun _ => none, fun _ => none⟩

/-- A variable of type `Tree` (its root) or of type `Node`. -/
inductive Place where
  | tree (h : Nat)
  | held (k : Nat)
  deriving DecidableEq, Repr

/-- Bytes that a program passes to a call by pointer: part of a buffer, the data of value `i` of the node
at a path, or the name of that node. -/
inductive Src where
  | buf (b off len : Nat)
  | data (at_ : Place) (path : List Nat) (i : Nat)
  | name (at_ : Place) (path : List Nat)
  deriving DecidableEq, Repr

/-- Calls. -/
inductive Op where
  /-- the program writes a buffer, gives it up -/
  | write (b : Nat) (d : Bytes)
  | free (b : Nat)
  /-- `t = Tree(type)`, `t = Tree()`, `t' = std::move(t)`, `t.clear()` -/
  | create (h : Nat) (t : ScopeTy)
  | drop (h : Nat)
  | move (h h' : Nat)
  | clear (h : Nat)
  /-- `insert(name, …)` of bytes, of a new node, of a copy of a node, of a copy of a value -/
  | insert (at_ : Place) (path : List Nat) (name : Src) (kind : Nat) (data : Src)
  | insertNode (at_ : Place) (path : List Nat) (name : Src) (t : ScopeTy)
  | copyNode (at_ : Place) (path : List Nat) (name : Src) (from_ : Place) (path' : List Nat)
  | copyValue (at_ : Place) (path : List Nat) (name : Src) (from_ : Place) (path' : List Nat) (i : Nat)
  /-- `remove_node(i)`, `remove_value(i)` -/
  | removeNode (at_ : Place) (path : List Nat) (i : Nat)
  | removeValue (at_ : Place) (path : List Nat) (i : Nat)
  /-- `t.load_source(data, len, parser)`: `fields` are what the parser returns until it is done or throws
  (`complete = false`); `root = none`: it throws at once -/
  | load (h : Nat) (data : Src) (root : Option (Piece × ScopeTy)) (fields : List Field) (complete : Bool)
  /-- `Node n(tree)`, `Node n = …`, end of the scope of `n` -/
  | declare (k : Nat) (h : Nat)
  | hold (k : Nat) (from_ : Place) (path : List Nat)
  | release (k : Nat)
  /-- `t.root() = …` -/
  | assign (h : Nat) (from_ : Place) (path : List Nat)
  /-- a node is read -/
  | view (at_ : Place) (path : List Nat)
  /-- `to_source(parser)` of a node -/
  | save (at_ : Place) (path : List Nat)

/-- What a call returns. -/
inductive Out where
  | done
  | threw
  | node (n : ANode)
  | saved (n : ANode)

namespace St

def setTree (s : St) (h : Nat) (x : Option (Nat × PNode)) : St :=
  { s with trees := fun k => if k = h then x else s.trees k }

def setHeld (s : St) (k : Nat) (x : Option PNode) : St :=
  { s with held := fun j => if j = k then x else s.held j }

/-- `Tree::create_env` (Tree.cpp:117-127). -/
def createEnv (s : St) (h : Nat) (t : ScopeTy) : St :=
  let (e, m) := s.mem.newEnv
  { s with mem := m }.setTree h (some (e, .mk e 0 t .empty [] []))

/-- `Tree::root`, `Tree::get_env` (Tree.cpp:85-91, 129-136): the environment is made when first needed. -/
def ensure (s : St) (h : Nat) : St :=
  match s.trees h with
  | some _ => s
  | none => s.createEnv h .object

/-- The variable is used: a node that is held needs the memory its lists are in. -/
def root (s : St) : Place → Res (PNode × St)
  | .tree h =>
    let s := s.ensure h
    match s.trees h with
    | some (_, n) => .ok (n, s)
    | none => .ub
  | .held k =>
    match s.held k with
    | some n => do
      let _ ← s.mem.envAt n.env n.gen
      .ok (n, s)
    | none => .ub

def setRoot (s : St) (n : PNode) : Place → St
  | .tree h => match s.trees h with
    | some (e, _) => s.setTree h (some (e, n))
    | none => s
  | .held k => s.setHeld k (some n)

/-- The environment of a tree is destroyed with it (`unique_ptr`, Tree.h:75). -/
def destroy (s : St) (h : Nat) : Res St :=
  match s.trees h with
  | some (e, _) => do
    let m ← s.mem.destroyEnv e
    .ok ({ s with mem := m }.setTree h none)
  | none => .ok s

/-- `Tree::clear` (Tree.cpp:105-115). -/
def clearTree (s : St) (h : Nat) : Res St :=
  match s.trees h with
  | some (e, n) => do
    let m ← s.mem.clearEnv e
    let (r, m) ← m.newNode e n.type []
    .ok ({ s with mem := m }.setTree h (some (e, r)))
  | none => .ok s

end St

namespace Src

/-- The pointer that is passed; `none` if a node or value is accessed by a position that does not exist,
which throws. -/
def block (s : St) : Src → Res (Option Block × St)
  | .buf b off len => .ok (some (.ext (.buf b) off len), s)
  | .data a path i => do
    let (n, s) ← s.root a
    match n.at? path with
    | none => .ok (none, s)
    | some c => match c.values[i]? with
      | none => .ok (none, s)
      | some v => match v.block with
        | .loc d => .ok (some (.ext (.link c.env c.gen d) 0 d.length), s)
        | b => .ok (some b, s)
  | .name a path => do
    let (n, s) ← s.root a
    match n.at? path with
    | none => .ok (none, s)
    | some c => do
      let d ← s.mem.nameOf c.name
      .ok (some (.ext (.link c.env c.gen d) 0 d.length), s)

end Src

/-- `insert` at a node: place, path and name are looked up, then `f` is given the environment of the
node and the name, and what it returns is added by `add`. -/
def insertWith {α : Type} (s : St) (a : Place) (path : List Nat) (name : Src)
    (f : Mem → Nat → Bytes → Res (α × Mem)) (add : α → PNode → PNode) : Res (Out × St) := do
  let (nb, s) ← name.block s
  match nb with
  | none => .ok (.threw, s)
  | some nb => do
    let (r, s) ← s.root a
    match r.at? path with
    | none => .ok (.threw, s)
    | some n => do
      let d ← s.mem.read nb
      let (x, m) ← f s.mem n.env d
      .ok (.done, { s with mem := m }.setRoot (r.update (add x) path) a)

/-- The tree is cleared, or given an environment if it has none (Tree.cpp:32-37). -/
def St.emptied (s : St) (h : Nat) : Res St :=
  match s.trees h with
  | some _ => s.clearTree h
  | none => .ok (s.createEnv h .object)

/-- `Tree::load_source` (Tree.hpp:99-115; `read_source` and `prologue_in`, Tree.cpp:30-50, 71-75). The
parser is given up at the end. -/
def loadTree (s : St) (h : Nat) (src : Block) (root : Option (Piece × ScopeTy)) (fields : List Field)
    (complete : Bool) : Res (Out × St) := do
  let s ← s.emptied h
  match root, s.trees h with
  | none, _ => .ok (.threw, s)
  | some _, none => .ub
  | some (nm, t), some (e, _) => do
    let (nb, m) := s.mem.nameBlock src nm
    let d ← m.read nb
    let (n, m) ← m.newNode e t d
    let (n, m) ← m.readFields e src fields n
    let m := { m with pname := none, pval := none }
    .ok (if complete then .done else .threw, { s with mem := m }.setTree h (some (e, n)))

/-- `Node::remove_node(size_t)`, `remove_value(size_t)` (Node.cpp:639-642, 654-657): positions out of
range have no effect. -/
def dropNode (i : Nat) : PNode → PNode | .mk e g t n vs ns => .mk e g t n vs (ns.eraseIdx i)
def dropValue (i : Nat) : PNode → PNode | .mk e g t n vs ns => .mk e g t n (vs.eraseIdx i) ns

/-- One call. -/
def step (s : St) : Op → Res (Out × St)
  | .write b d => .ok (.done, { s with mem := { s.mem with bufs := fun k => if k = b then some d else s.mem.bufs k } })
  | .free b => .ok (.done, { s with mem := { s.mem with bufs := fun k => if k = b then none else s.mem.bufs k } })
  | .create h t => do
    let s ← s.destroy h
    .ok (.done, s.createEnv h t)
  | .drop h => do
    let s ← s.destroy h
    .ok (.done, s)
  /- Tree.cpp:13-23; moving a tree to itself leaves `root_node` null, every further use is undefined -/
  | .move h h' =>
    if h = h' then (match s.trees h with | some _ => .ub | none => .ok (.done, s))
    else do
      let x := s.trees h
      let s ← s.destroy h'
      .ok (.done, (s.setTree h' x).setTree h none)
  | .clear h => do
    let s ← s.clearTree h
    .ok (.done, s)
  | .insert a path name kind data => do
    let (b, s) ← data.block s
    match b with
    | none => .ok (.threw, s)
    | some b => insertWith s a path name (fun m e d => m.storeValue e kind b d) PNode.addValue
  | .insertNode a path name t => insertWith s a path name (fun m e d => m.newNode e t d) PNode.addNode
  | .copyNode a path name a' path' => do
    let (r, s) ← s.root a'
    match r.at? path' with
    | none => .ok (.threw, s)
    | some c => insertWith s a path name (fun m e d => m.copyNode e c d) PNode.addNode
  | .copyValue a path name a' path' i => do
    let (r, s) ← s.root a'
    match r.at? path' with
    | none => .ok (.threw, s)
    | some c => match c.values[i]? with
      | none => .ok (.threw, s)
      | some v => insertWith s a path name (fun m e d => m.storeValue e v.kind v.block d) PNode.addValue
  | .removeNode a path i => do
    let (r, s) ← s.root a
    match r.at? path with
    | none => .ok (.threw, s)
    | some _ => .ok (.done, s.setRoot (r.update (dropNode i) path) a)
  | .removeValue a path i => do
    let (r, s) ← s.root a
    match r.at? path with
    | none => .ok (.threw, s)
    | some _ => .ok (.done, s.setRoot (r.update (dropValue i) path) a)
  | .load h data root fields complete => do
    let (b, s) ← data.block s
    match b with
    | none => .ok (.threw, s)
    | some b => loadTree s h b root fields complete
  | .declare k h => do
    let (r, s) ← s.root (.tree h)
    .ok (.done, s.setHeld k (some (.mk r.env r.gen .object .null [] [])))
  | .hold k a path => do
    let (r, s) ← s.root a
    match r.at? path with
    | none => .ok (.threw, s)
    | some c => .ok (.done, s.setHeld k (some c))
  | .release k =>
    match s.held k with
    | none => .ok (.done, s)
    | some n => do
      let _ ← s.mem.envAt n.env n.gen
      .ok (.done, s.setHeld k none)
  | .assign h a path => do
    let (r, s) ← s.root a
    match r.at? path with
    | none => .ok (.threw, s)
    | some c => do
      let (_, s) ← s.root (.tree h)
      .ok (.done, s.setRoot c (.tree h))
  | .view a path => do
    let (r, s) ← s.root a
    match r.at? path with
    | none => .ok (.threw, s)
    | some c => do
      let n ← s.mem.view c
      .ok (.node n, s)
  | .save a path => do
    let (r, s) ← s.root a
    match r.at? path with
    | none => .ok (.threw, s)
    | some c => do
      let n ← s.mem.save c
      .ok (.saved n, s)

/-- A program: what its calls return. -/
def run : List Op → St → Res (List Out × St)
  | [], s => .ok ([], s)
  | op :: ops, s => do
    let (o, s) ← step s op
    let (os, s) ← run ops s
    .ok (o :: os, s)

end Srl.Own
