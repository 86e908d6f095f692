import Verif.Model.Vlq
import Verif.Model.Fp
import Verif.Model.Doc
import Verif.Lemmas.Byte

/-! # The Srl binary format (src/lib/PSrl.cpp) -/

namespace Srl.PSrl

/-- Parser state. The C++ class keeps the writer's names in `hashed_strings` (a hash map from a
name to its position) and the reader's in `indexed_strings`; both are the list of names in order
of first occurrence. `scope` always is the top of `scope_stack` or `Null` (PSrl.cpp:291-303). -/
structure St where
  stack : List ScopeTy
  names : List Bytes
  deriving DecidableEq, Repr

/-- `PSrl::clear` (PSrl.cpp:305-313) -/
def St.init : St := ⟨[], []⟩

/-- Flags (PSrl.cpp:14-34) -/
def fNum : UInt8 := 1
def fNamed : UInt8 := 2
def fIndexed : UInt8 := 4
def fSigned : UInt8 := 8
def fFP32 : UInt8 := 16
def fFP64 : UInt8 := 32
def fTrue : UInt8 := 64
def fFalse : UInt8 := 128
def fNull : UInt8 := 8
def fBinary : UInt8 := 16
def fString : UInt8 := 32
def fObject : UInt8 := 64
def fArray : UInt8 := 128

/-- `build_flag` (PSrl.cpp:38-67) -/
def flagOf : Tok → UInt8
  | .val (.int t v) => fNum ||| (if t.signed && v < 0 then fSigned else 0)
  | .val (.fp32 _) => fNum ||| fFP32
  | .val (.fp64 _) => fNum ||| fFP64
  | .val (.str _) => fString
  | .val (.bin _) => fBinary
  | .scope .array => fArray
  | .scope .object => fObject
  | .val (.bool b) => fNum ||| (if b then fTrue else fFalse)
  | .val .null => fNull
  | .scopeEnd => 0

/-- Position of a name in the list of names. -/
def indexOf (name : Bytes) : List Bytes → Option Nat
  | [] => none
  | n :: ns => if n = name then some 0 else (indexOf name ns).map (· + 1)

/-- `PSrl::write_head` (PSrl.cpp:119-142). Returns the new list of names and the output. -/
def writeHead (st : St) (flag : UInt8) (name : Bytes) : Res (List Bytes × Bytes) :=
  if name.length < 1 ∨ st.stack.head? ≠ some .object then .ok (st.names, [flag])
  else
    let flag := flag ||| fNamed
    match indexOf name st.names with
    | some i => do
      let n ← Vlq.encode i
      .ok (st.names, (flag ||| fIndexed) :: n)
    | none => do
      let n ← Vlq.encode name.length
      .ok (st.names ++ [name], flag :: (n ++ name))

/-- What `PSrl::write` writes after the head (PSrl.cpp:196-220). Little endian memory layout of
the floating point numbers. Negating the most negative integer is undefined. -/
def writeBody : Val → Res Bytes
  | .null => .ok []
  | .bool _ => .ok []
  | .fp32 f => .ok (leBytes 4 f.toNat)
  | .fp64 d => .ok (leBytes 8 d.toNat)
  | .int t v =>
    if t.signed ∧ v < 0 then
      if v = -(2 ^ 63 : Nat) then .ub else Vlq.encode (-v).toNat
    else Vlq.encode v.toNat
  | .str s => do
    let n ← Vlq.encode s.length
    .ok (n ++ s)
  | .bin s => do
    let n ← Vlq.encode s.length
    .ok (n ++ s)

/-- `PSrl::write` (PSrl.cpp:174-221). Popping the empty stack is undefined. -/
def write (st : St) (e : Event) : Res (St × Bytes) :=
  match e.tok with
  | .scopeEnd =>
    match st.stack with
    | [] => .ub
    | _ :: stack => .ok ({ st with stack := stack }, [0])
  | .scope t => do
    let (names, h) ← writeHead st (flagOf e.tok) e.name
    .ok (⟨t :: st.stack, names⟩, h)
  | .val v => do
    let (names, h) ← writeHead st (flagOf e.tok) e.name
    let b ← writeBody v
    .ok ({ st with names := names }, h ++ b)

/-- Writing a token sequence. -/
def writeAll (st : St) : List Event → Res (St × Bytes)
  | [] => .ok (st, [])
  | e :: es => do
    let (st, b) ← write st e
    let (st, bs) ← writeAll st es
    .ok (st, b ++ bs)

/-- `PSrl::read_head` (PSrl.cpp:144-171): flag, name, list of names, rest. -/
def readHead (m : Mem) (st : St) (s : Bytes) : Res (UInt8 × Bytes × List Bytes × Bytes) := do
  let (blk, s) ← In.readBlock m 1 s
  let flag := blk.headD 0
  if flag &&& fNamed = 0 ∨ st.stack.head? ≠ some .object then .ok (flag, [], st.names, s)
  else if flag &&& fIndexed ≠ 0 then do
    let (index, s) ← Vlq.decode m s
    match st.names[index]? with
    | none => .err
    | some name => .ok (flag, name, st.names, s)
  else do
    let (size, s) ← Vlq.decode m s
    let (name, s) ← In.readBlock m size s
    .ok (flag, name, st.names ++ [name], s)

/-- Conversion `(int64_t)n` of a 64-bit number. -/
def toI64 (n : Nat) : Int := if n < 2 ^ 63 then n else (n : Int) - (2 ^ 64 : Nat)

/-- `PSrl::read_num` (PSrl.cpp:267-289) -/
def readNum (m : Mem) (flag : UInt8) (s : Bytes) : Res (Val × Bytes) :=
  if flag &&& (fTrue ||| fFalse) ≠ 0 then .ok (.bool (flag &&& fTrue ≠ 0), s)
  else if flag &&& fFP32 ≠ 0 then do
    let (b, s) ← In.readBlock m 4 s
    .ok (.fp32 (UInt32.ofNat (leNat b)), s)
  else if flag &&& fFP64 ≠ 0 then do
    let (b, s) ← In.readBlock m 8 s
    .ok (Fp.ofDouble (UInt64.ofNat (leNat b)), s)
  else do
    let (n, s) ← Vlq.decode m s
    if flag &&& fSigned ≠ 0 then
      if toI64 n = -(2 ^ 63 : Nat) then .ub else .ok (.int .i64 (-(toI64 n)), s)
    else .ok (.int .u64 n, s)

/-- `PSrl::read` after `read_head` (PSrl.cpp:228-265). `PackedBlock::size` has 32 bits
(Blocks.h:42), so a block is cut to its size modulo `2^32`. -/
def readRest (m : Mem) (stack : List ScopeTy) (flag : UInt8) (name : Bytes) (names : List Bytes)
    (s : Bytes) : Res (Event × (St × Bytes)) :=
  if flag = 0 then
    match stack with
    | [] => .err
    | _ :: stack => .ok (⟨[], .scopeEnd⟩, (⟨stack, names⟩, s))
  else if flag &&& fNum = 0 ∧ flag &&& (fObject ||| fArray) ≠ 0 then
    let t := if flag &&& fObject ≠ 0 then ScopeTy.object else .array
    .ok (⟨name, .scope t⟩, (⟨t :: stack, names⟩, s))
  else if flag &&& fNum ≠ 0 then do
    let (v, s) ← readNum m flag s
    .ok (⟨name, .val v⟩, (⟨stack, names⟩, s))
  else if flag &&& (fBinary ||| fString) ≠ 0 then do
    let (size, s) ← Vlq.decode m s
    let (b, s) ← In.readBlock m size s
    let b := b.take (size % 2 ^ 32)
    .ok (⟨name, .val (if flag &&& fBinary ≠ 0 then .bin b else .str b)⟩, (⟨stack, names⟩, s))
  else if flag &&& fNull ≠ 0 then .ok (⟨name, .val .null⟩, (⟨stack, names⟩, s))
  else .err

/-- `PSrl::read` -/
def read (m : Mem) (x : St × Bytes) : Res (Event × (St × Bytes)) := do
  let (flag, name, names, s) ← readHead m x.1 x.2
  readRest m x.1.stack flag name names s

/-- `Tree::to_source` with a `PSrl` (Tree.cpp:52-69) into an empty output. -/
def save (name : Bytes) (n : Node) : Res Bytes := do
  let (_, b) ← writeAll St.init (n.events name)
  .ok b

/-- `Tree::read_source` with a `PSrl`. A step budget of the length of the source suffices
(`Srl.Props.srl_load_terminates`). Also returns the state of the parser and what is left of the
source. -/
def load (m : Mem) (s : Bytes) : Res (Root × (St × Bytes)) :=
  Doc.load (read m) (s.length + 1) (St.init, s)

end Srl.PSrl
