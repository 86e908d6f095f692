import Verif.Model.PSrl
import Verif.Model.PMsgPack
import Verif.Model.HTable
import Verif.Model.Fnv

/-! # Parser objects of the binary formats, with all their members -/

namespace Srl.PSrl

/-- The members of `PSrl` (include/Srl/PSrl.h:34-40). `scope` is the top of `scope_stack`
(PSrl.cpp:291-303). `string_buffer` only keeps copies of the names of a stream. -/
structure Obj where
  stack : List ScopeTy
  indexed : List Bytes
  hashed : HTable.Tbl Bytes Nat

/-- `PSrl()` (PSrl.h:23); the table gets 64 buckets (Hash.h:47) -/
def Obj.new : Obj := ⟨[], [], HTable.new 64⟩

/-- `PSrl::clear` (PSrl.cpp:305-313) -/
def Obj.clear (o : Obj) : Obj := ⟨[], [], HTable.clear o.hashed⟩

/-- The hash table of names, hashed with `Aux::hash_fnc` (PSrl.h:9-18, Hash.cpp:46-49). `scale` is
left open, see `HTable.Cfg`. -/
def nameCfg (scale : Nat → Nat) : HTable.Cfg Bytes :=
  ⟨fun b => match Fnv.hash b with | .ok h => h | _ => 0, scale⟩

/-- `PSrl::write_head` (PSrl.cpp:119-142) as it is: on the hash table. -/
def Obj.writeHead (cfg : HTable.Cfg Bytes) (o : Obj) (flag : UInt8) (name : Bytes) :
    Res (HTable.Tbl Bytes Nat × Bytes) :=
  if name.length < 1 ∨ o.stack.head? ≠ some .object then .ok (o.hashed, [flag])
  else do
    let flag := flag ||| fNamed
    let (t, existed, _, index) ← HTable.insert cfg o.hashed name o.hashed.elements
    if existed then do
      let n ← Vlq.encode index
      .ok (t, (flag ||| fIndexed) :: n)
    else do
      let n ← Vlq.encode name.length
      .ok (t, flag :: (n ++ name))

/-- `PSrl::write` (PSrl.cpp:174-221) -/
def Obj.write (cfg : HTable.Cfg Bytes) (o : Obj) (e : Event) : Res (Obj × Bytes) :=
  match e.tok with
  | .scopeEnd =>
    match o.stack with
    | [] => .ub
    | _ :: stack => .ok ({ o with stack := stack }, [0])
  | .scope t => do
    let (hashed, h) ← o.writeHead cfg (flagOf e.tok) e.name
    .ok (⟨t :: o.stack, o.indexed, hashed⟩, h)
  | .val v => do
    let (hashed, h) ← o.writeHead cfg (flagOf e.tok) e.name
    let b ← writeBody v
    .ok ({ o with hashed := hashed }, h ++ b)

/-- Writing a token sequence. -/
def Obj.writeAll (cfg : HTable.Cfg Bytes) (o : Obj) : List Event → Res (Obj × Bytes)
  | [] => .ok (o, [])
  | e :: es => do
    let (o, b) ← o.write cfg e
    let (o, bs) ← o.writeAll cfg es
    .ok (o, b ++ bs)

/-- `PSrl::read` (PSrl.cpp:223-265) touches `indexed_strings` and `scope_stack` only. -/
def Obj.read (m : Mem) (x : Obj × Bytes) : Res (Event × (Obj × Bytes)) := do
  let (e, st, s) ← PSrl.read m (⟨x.1.stack, x.1.indexed⟩, x.2)
  .ok (e, (⟨st.stack, st.names, x.1.hashed⟩, s))

/-- Saving with a parser used before: `set_output` clears it (Environment.cpp:157-162). -/
def Obj.save (cfg : HTable.Cfg Bytes) (o : Obj) (name : Bytes) (n : Node) : Res (Obj × Bytes) :=
  o.clear.writeAll cfg (n.events name)

/-- Loading with a parser used before: `set_input` clears it (Environment.cpp:150-155). -/
def Obj.load (m : Mem) (o : Obj) (s : Bytes) : Res (Root × (Obj × Bytes)) :=
  Doc.load (Obj.read m) (s.length + 1) (o.clear, s)

end Srl.PSrl

namespace Srl.PMsgPack

/-- The members of `PMsgPack` (include/Srl/PMsgPack.h:22-33). `scope` points to the top of
`scope_stack` or is null. Scopes read have no ticket. `buffer` takes the last name read from a stream (here: from any source). -/
structure Obj where
  scopes : List WScope
  buffer : Bytes

/-- `PMsgPack()` -/
def Obj.new : Obj := ⟨[], []⟩

/-- `PMsgPack::clear` (PMsgPack.cpp:471-475) -/
def Obj.clear (o : Obj) : Obj := ⟨[], o.buffer⟩

/-- Copying a name into `buffer` (PMsgPack.cpp:355-369): the front of the buffer is overwritten;
the name is what its front shows afterwards. -/
def Obj.bufferName (buffer name : Bytes) : Bytes × Bytes :=
  let buffer := name ++ buffer.drop name.length
  (buffer, buffer.take name.length)

/-- `PMsgPack::read` (PMsgPack.cpp:414-469) on the members. -/
def Obj.read (m : Mem) (x : Obj × Bytes) : Res (Event × (Obj × Bytes)) := do
  let (e, st, s) ← PMsgPack.read m (x.1.scopes.map fun w => ⟨w.type, w.elements⟩, x.2)
  let (buffer, name) := bufferName x.1.buffer e.name
  .ok (⟨name, e.tok⟩, (⟨st.map fun r => ⟨r.type, r.elements, 0⟩, buffer⟩, s))

/-- Saving with a parser used before -/
def Obj.save (o : Obj) (name : Bytes) (n : Node) : Res (Obj × Bytes) := do
  let (st, b) ← writeAll (o.clear.scopes, []) (n.events name)
  .ok (⟨st, o.buffer⟩, b)

/-- Loading with a parser used before -/
def Obj.load (m : Mem) (o : Obj) (s : Bytes) : Res (Root × (Obj × Bytes)) :=
  Doc.load (Obj.read m) (2 * s.length + 1) (o.clear, s)

end Srl.PMsgPack
