import Verif.Model.PSrl

/-! # Names in memory when writing the Srl format (src/lib/PSrl.cpp, src/lib/Environment.cpp)

`PSrl::hashed_strings` holds no names but pointers to them (`HTable<MemBlock, size_t>`, PSrl.h:43). The model of
the format (`Srl.PSrl`) takes names as values; here is the writer with pointers, and the memory they point to as
the program around it leaves it at every call. -/

namespace Srl.Names

/-- What can be read from an address on; `none`: nothing, the memory was given back. -/
abbrev Memory := Nat → Option Bytes

/-- `MemBlock` (Blocks.h:10-23) -/
structure Ref where
  addr : Nat
  size : Nat
  deriving DecidableEq, Repr

/-- Reading the bytes of a block -/
def deref (μ : Memory) (r : Ref) : Res Bytes :=
  if r.size = 0 then .ok []
  else match μ r.addr with
    | none => .ub
    | some b => if b.length < r.size then .ub else .ok (b.take r.size)

/-- `MemBlock::operator==` (Blocks.h:18-22) -/
def same (μ : Memory) (a b : Ref) : Res Bool :=
  if a.size = b.size then
    if a.addr = b.addr then .ok true
    else do
      let x ← deref μ a
      let y ← deref μ b
      .ok (x == y)
  else .ok false

/-- What `hashed_strings` holds of a name: its hash when it was inserted, the pointer, the index -/
structure Entry where
  hash : UInt64
  key : Ref
  index : Nat
  deriving DecidableEq, Repr

/-- Looking for a key (Hash.hpp:173-188). Of the entries in the bucket only those with this hash are compared,
in the order in which they were inserted (see `Srl.HTable`). -/
def find (μ : Memory) (h : UInt64) (k : Ref) : List Entry → Res (Option Nat)
  | [] => .ok none
  | e :: es =>
    if e.hash = h then do
      let b ← same μ e.key k
      if b then .ok (some e.index) else find μ h k es
    else find μ h k es

/-- Parser state: `scope_stack` and `hashed_strings` (PSrl.h:38-43) -/
structure St where
  stack : List ScopeTy
  entries : List Entry
  deriving DecidableEq, Repr

/-- `PSrl::clear` (PSrl.cpp:305-313) -/
def St.init : St := ⟨[], []⟩

/-- `PSrl::write_head` (PSrl.cpp:119-142) -/
def writeHead (hash : Bytes → UInt64) (μ : Memory) (st : St) (flag : UInt8) (key : Ref) : Res (List Entry × Bytes) :=
  if key.size < 1 ∨ st.stack.head? ≠ some .object then .ok (st.entries, [flag])
  else do
    let flag := flag ||| PSrl.fNamed
    let name ← deref μ key
    let found ← find μ (hash name) key st.entries
    match found with
    | some i => do
      let n ← Vlq.encode i
      .ok (st.entries, (flag ||| PSrl.fIndexed) :: n)
    | none => do
      let n ← Vlq.encode key.size
      .ok (st.entries ++ [⟨hash name, key, st.entries.length⟩], flag :: (n ++ name))

/-- A call of `write`: the memory at this moment, the pointer to the name, and what is written. (Values are not
kept by the writer, so they are given as such.) -/
structure Call where
  mem : Memory
  name : Ref
  tok : Tok

/-- `PSrl::write` (PSrl.cpp:174-221) -/
def write (hash : Bytes → UInt64) (st : St) (c : Call) : Res (St × Bytes) :=
  match c.tok with
  | .scopeEnd =>
    match st.stack with
    | [] => .ub
    | _ :: stack => .ok ({ st with stack := stack }, [0])
  | .scope t => do
    let (es, h) ← writeHead hash c.mem st (PSrl.flagOf c.tok) c.name
    .ok (⟨t :: st.stack, es⟩, h)
  | .val v => do
    let (es, h) ← writeHead hash c.mem st (PSrl.flagOf c.tok) c.name
    let b ← PSrl.writeBody v
    .ok ({ st with entries := es }, h ++ b)

/-- Several calls -/
def writeAll (hash : Bytes → UInt64) (st : St) : List Call → Res (St × Bytes)
  | [] => .ok (st, [])
  | c :: cs => do
    let (st, b) ← write hash st c
    let (st, bs) ← writeAll hash st cs
    .ok (st, b ++ bs)

/-! ## Names that are not UTF-8 -/

/-- `Environment::str_buffer`: address, size and capacity -/
structure Buffer where
  addr : Nat
  size : Nat
  cap : Nat
  deriving DecidableEq, Repr

/-- `vector::resize` to a larger size. Beyond the capacity the memory is replaced by other memory, with the
capacity that libstdc++ chooses; addresses are taken in ascending order. -/
def Buffer.resize (b : Buffer) (n : Nat) : Buffer :=
  if b.cap < n then ⟨b.addr + 1, n, max n (2 * b.size)⟩ else ⟨b.addr, n, b.cap⟩

/-- The conversion of a name into `str_buffer` in `Environment::write_conv` (Environment.cpp:168-175,
ToolsStrConv.cpp:339-346): `name` is the result – the conversion itself is the subject of `Srl.Chars` –,
`reserve` what is reserved for it. -/
def convert (b : Buffer) (name : Bytes) (reserve : Nat) : Buffer × Memory :=
  let b := if b.size < reserve then b.resize reserve else b
  (b, fun a => if a = b.addr then some (name ++ List.replicate (b.size - name.length) 0) else none)

/-- A name that has to be converted -/
structure Wide where
  name : Bytes
  reserve : Nat
  tok : Tok

/-- The calls `Environment::write` makes. Nothing but the buffer is in the memory; other memory does not matter
as no name points to it. -/
def calls (b : Buffer) : List Wide → List Call
  | [] => []
  | w :: ws =>
    let (b, μ) := convert b w.name w.reserve
    ⟨μ, ⟨b.addr, w.name.length⟩, w.tok⟩ :: calls b ws

end Srl.Names
