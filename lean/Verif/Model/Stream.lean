import Verif.Model.PSrl
import Verif.Model.PMsgPack

/-! # Reading from streams (include/Srl/In.h, include/Srl/In.hpp, src/lib/In.cpp)

`In` keeps a part of the stream in a buffer. The bytes of a block that `In` returns are taken at once; in
the code blocks point into the buffer, and are copied or used up before the next operation
(PSrl.cpp:164-166, PMsgPack.cpp:360-365, Environment.cpp:133-143).

The stream delivers a list of bytes; it blocks until it has what is asked for, or ends. -/

namespace Srl.Stream

/-- Result of an operation: as `Res`, or an exception of the standard library for lack of memory
(`std::bad_alloc`, `std::length_error`), which is not a `Srl::Exception`. -/
inductive SRes (α : Type) where
  | ok (a : α)
  | err
  | ub
  | fuel
  | alloc
  deriving DecidableEq

def SRes.bind {α β : Type} (x : SRes α) (f : α → SRes β) : SRes β :=
  match x with
  | .ok a => f a
  | .err => .err
  | .ub => .ub
  | .fuel => .fuel
  | .alloc => .alloc

/-- `In` on a stream (In.h:88-99). `start` is the start of the buffer; `pos`, `end` and `anchor` are
offsets into it. `src` is what the stream has left. -/
structure SIn where
  buf : Bytes
  pos : Nat
  stop : Nat
  anchor : Option Nat
  eof : Bool
  src : Bytes
  deriving DecidableEq

/-- `In::In` -/
def SIn.new : SIn := ⟨[], 0, 0, none, false, []⟩

/-- `vector::resize` to a larger size -/
def resize (n : Nat) (b : Bytes) : Bytes := b ++ List.replicate (n - b.length) 0

/-- `In::try_fetch_data` (In.cpp:32-92). At most `cap` bytes can be had for the buffer. The difference
`end - pos` is never negative nor larger than what is asked for where this is called, so the case is not
followed; `&buffer[preserve_sz]`, one behind the end if nothing is to be read, is taken as defined. -/
def tryFetch (cap n len : Nat) (s : SIn) : SRes (Bool × SIn) :=
  if s.eof then .ok (false, s)
  else if s.stop < s.pos ∨ max n len < s.stop - s.pos then .ub
  else
    let left := s.stop - s.pos
    let readLen := max n len - left
    let keep := s.anchor.getD s.pos
    let margin := min 32 keep
    let off := keep - margin
    let size := s.stop - off
    if s.buf.length < size + readLen ∧ cap < size + readLen then .alloc
    else
      let data := s.src.take readLen
      let buf := (s.buf.drop off).take size ++ data ++ (resize (size + readLen) s.buf).drop (size + data.length)
      let s := ⟨buf, size - left, size + data.length, if s.anchor.isSome then none else some margin, false,
        s.src.drop readLen⟩
      if data.length + left < n then .ok (false, { s with eof := true }) else .ok (true, s)

/-- `In::set` (In.cpp:8-23) with a stream. The buffer is the one of the source before. -/
def SIn.set (cap : Nat) (s : SIn) (src : Bytes) : SRes SIn :=
  (tryFetch cap 0 1 ⟨s.buf, 0, 0, none, false, src⟩).bind fun x => .ok x.2

/-- `In::peek` (In.hpp:83-89) with `In::fetch_data` (In.cpp:25-30). `pos + steps` may overflow if `steps`
is half of the address space or more. -/
def peek (cap steps : Nat) (s : SIn) : SRes SIn :=
  if 2 ^ 63 ≤ steps then .ub
  else if s.stop ≤ s.pos + steps then
    (tryFetch cap steps 1024 s).bind fun x => if x.1 then .ok x.2 else .err
  else .ok s

/-- `In::move` (In.hpp:78-81) -/
def move (cap steps : Nat) (s : SIn) : SRes SIn :=
  (peek cap steps s).bind fun s => .ok { s with pos := s.pos + steps }

/-- The block of `n` bytes before the position -/
def back (n : Nat) (s : SIn) : SRes Bytes :=
  if s.pos < n ∨ s.buf.length < s.pos then .ub else .ok ((s.buf.drop (s.pos - n)).take n)

/-- `In::read_block` (In.hpp:96-103) -/
def readBlock (cap steps : Nat) (s : SIn) : SRes (Bytes × SIn) :=
  (move cap steps { s with anchor := some s.pos }).bind fun s =>
    (back steps s).bind fun b => .ok (b, { s with anchor := none })

/-- `*In::pointer()` (In.hpp:167-170) -/
def cur (s : SIn) : SRes UInt8 :=
  match s.buf[s.pos]? with
  | some b => .ok b
  | none => .ub

/-! ## Programs that read -/

/-- A program that reads: what it does next may depend on what it has read. -/
inductive Prog (α : Type) where
  | done (r : Res α)
  /-- `read_block`, also `read_move` (In.hpp:9-19) -/
  | block (n : Nat) (k : Bytes → Prog α)
  | move (n : Nat) (k : Prog α)
  /-- `*pointer()` -/
  | cur (k : UInt8 → Prog α)

variable {α β : Type}

def Prog.bind : Prog α → (α → Prog β) → Prog β
  | .done (.ok a), f => f a
  | .done .err, _ => .done .err
  | .done .ub, _ => .done .ub
  | .done .fuel, _ => .done .fuel
  | .block n k, f => .block n fun b => (k b).bind f
  | .move n k, f => .move n (k.bind f)
  | .cur k, f => .cur fun b => (k b).bind f

/-- The program on a memory source -/
def Prog.mem (m : Mem) : Prog α → Bytes → Res (α × Bytes)
  | .done r, s => r.bind fun a => .ok (a, s)
  | .block n k, s => (In.readBlock m n s).bind fun x => (k x.1).mem m x.2
  | .move n k, s => (In.move m n s).bind fun s => k.mem m s
  | .cur k, s => (In.cur m s).bind fun b => (k b).mem m s

/-- The program on a stream -/
def Prog.stream (cap : Nat) : Prog α → SIn → SRes (α × SIn)
  | .done (.ok a), s => .ok (a, s)
  | .done .err, _ => .err
  | .done .ub, _ => .ub
  | .done .fuel, _ => .fuel
  | .block n k, s => (Stream.readBlock cap n s).bind fun x => (k x.1).stream cap x.2
  | .move n k, s => (Stream.move cap n s).bind fun s => k.stream cap s
  | .cur k, s => (Stream.cur s).bind fun b => (k b).stream cap s

/-- Outcome of one token with parser state and source together. Lack of memory, which the outcomes of the
other modules do not have, is given as `fuel`; it stops the program there as well. -/
def reading {ε σ : Type} : SRes ((ε × σ) × SIn) → Res (ε × (σ × SIn))
  | .ok ((e, st), s) => .ok (e, (st, s))
  | .err => .err
  | .ub => .ub
  | .fuel => .fuel
  | .alloc => .fuel

/-- `In::set` with a stream, then `f` -/
def opened (cap : Nat) (old : SIn) (src : Bytes) (f : SIn → Res α) : Res α :=
  match SIn.set cap old src with
  | .ok s => f s
  | .err => .err
  | .ub => .ub
  | .fuel => .fuel
  | .alloc => .fuel

end Srl.Stream

namespace Srl

/-! ## The parsers as programs -/

open Srl.Stream (Prog SIn)

namespace Vlq

/-- The loop of `decode_integer` (PSrl.cpp:94-108) -/
def decLoopP : Nat → UInt8 → Nat → Nat → Prog Nat
  | fuel, block, out, shift =>
    if block &&& 128 = 0 then
      if shift > 10 * 7 then .done .err else .move 1 (.done (.ok out))
    else
      match fuel with
      | 0 => .done .ub
      | fuel + 1 =>
        .move 1 (.cur fun block =>
          if shift ≥ 64 then .done .ub
          else decLoopP fuel block (out ||| (((127 &&& block).toNat <<< shift) % 2 ^ 64)) (shift + 7))

/-- `decode_integer` (PSrl.cpp:89-111) -/
def decodeP : Prog Nat := .cur fun block => decLoopP 10 block (127 &&& block).toNat 7

end Vlq

namespace PSrl

/-- `PSrl::read_head` (PSrl.cpp:144-171) -/
def readHeadP (st : St) : Prog (UInt8 × Bytes × List Bytes) :=
  .block 1 fun blk =>
    let flag := blk.headD 0
    if flag &&& fNamed = 0 ∨ st.stack.head? ≠ some .object then .done (.ok (flag, [], st.names))
    else if flag &&& fIndexed ≠ 0 then
      Vlq.decodeP.bind fun index =>
        match st.names[index]? with
        | none => .done .err
        | some name => .done (.ok (flag, name, st.names))
    else
      Vlq.decodeP.bind fun size => .block size fun name => .done (.ok (flag, name, st.names ++ [name]))

/-- `PSrl::read_num` (PSrl.cpp:267-289) -/
def readNumP (flag : UInt8) : Prog Val :=
  if flag &&& (fTrue ||| fFalse) ≠ 0 then .done (.ok (.bool (flag &&& fTrue ≠ 0)))
  else if flag &&& fFP32 ≠ 0 then .block 4 fun b => .done (.ok (.fp32 (UInt32.ofNat (leNat b))))
  else if flag &&& fFP64 ≠ 0 then .block 8 fun b => .done (.ok (Fp.ofDouble (UInt64.ofNat (leNat b))))
  else Vlq.decodeP.bind fun n =>
    if flag &&& fSigned ≠ 0 then
      if toI64 n = -(2 ^ 63 : Nat) then .done .ub else .done (.ok (.int .i64 (-(toI64 n))))
    else .done (.ok (.int .u64 n))

/-- `PSrl::read` after `read_head` (PSrl.cpp:228-265) -/
def readRestP (stack : List ScopeTy) (flag : UInt8) (name : Bytes) (names : List Bytes) : Prog (Event × St) :=
  if flag = 0 then
    match stack with
    | [] => .done .err
    | _ :: stack => .done (.ok (⟨[], .scopeEnd⟩, ⟨stack, names⟩))
  else if flag &&& fNum = 0 ∧ flag &&& (fObject ||| fArray) ≠ 0 then
    let t := if flag &&& fObject ≠ 0 then ScopeTy.object else .array
    .done (.ok (⟨name, .scope t⟩, ⟨t :: stack, names⟩))
  else if flag &&& fNum ≠ 0 then
    (readNumP flag).bind fun v => .done (.ok (⟨name, .val v⟩, ⟨stack, names⟩))
  else if flag &&& (fBinary ||| fString) ≠ 0 then
    Vlq.decodeP.bind fun size => .block size fun b =>
      let b := b.take (size % 2 ^ 32)
      .done (.ok (⟨name, .val (if flag &&& fBinary ≠ 0 then .bin b else .str b)⟩, ⟨stack, names⟩))
  else if flag &&& fNull ≠ 0 then .done (.ok (⟨name, .val .null⟩, ⟨stack, names⟩))
  else .done .err

/-- `PSrl::read` -/
def readP (st : St) : Prog (Event × St) :=
  (readHeadP st).bind fun x => readRestP st.stack x.1 x.2.1 x.2.2

/-- `PSrl::read` on a stream -/
def readS (cap : Nat) (x : St × SIn) : Res (Event × (St × SIn)) := Stream.reading ((readP x.1).stream cap x.2)

/-- `Tree::read_source` with a `PSrl` and a stream (Tree.h: `load_source(std::istream&)`) -/
def loadS (cap : Nat) (old : SIn) (src : Bytes) : Res Root :=
  Stream.opened cap old src fun s => do
    let (r, _) ← Doc.load (readS cap) (src.length + 1) (St.init, s)
    .ok r

end PSrl

namespace PMsgPack

/-- `In::read_move<T>` (In.hpp:9-19) followed by `swap_bytes` -/
def readBeP (n : Nat) : Prog Nat := .block n fun b => .done (.ok (beNat b))

/-- `In::read_move<T>` -/
def readLeP (n : Nat) : Prog Nat := .block n fun b => .done (.ok (leNat b))

/-- `read_num` on an integer type (PMsgPack.cpp:210-219) -/
def readIntP (t : IntTy) : Prog Val := (readBeP (t.bits / 8)).bind fun n => .done (.ok (.int t (ofTwos t n)))

/-- `read_num` (PMsgPack.cpp:210-237) -/
def readNumP (p : UInt8) : Prog Val :=
  if p = 0xCA then (readBeP 4).bind fun n => .done (.ok (.fp32 (UInt32.ofNat n)))
  else if p = 0xCB then (readBeP 8).bind fun n => .done (.ok (Fp.ofDouble (UInt64.ofNat n)))
  else if p = 0xCC then readIntP .u8
  else if p = 0xCD then readIntP .u16
  else if p = 0xCE then readIntP .u32
  else if p = 0xCF then readIntP .u64
  else if p = 0xD0 then readIntP .i8
  else if p = 0xD1 then readIntP .i16
  else if p = 0xD2 then readIntP .i32
  else if p = 0xD3 then readIntP .i64
  else .done .err

/-- `read_scalar` (PMsgPack.cpp:271-279) -/
def readScalarP (p : UInt8) : Prog Val :=
  if p = 0xC2 ∨ p = 0xC3 then .done (.ok (.bool (p = 0xC3)))
  else if 0xCA ≤ p ∧ p ≤ 0xD3 then readNumP p
  else if p = 0xC0 then .done (.ok .null)
  else .done (.ok (.int .i32 (fixnum p)))

/-- `get_str_size` (PMsgPack.cpp:281-289) -/
def strSizeP (p : UInt8) : Prog Nat :=
  if 0xA0 ≤ p ∧ p ≤ 0xBF then .done (.ok (p &&& 0x1F).toNat)
  else if p = 0xD9 then readLeP 1
  else if p = 0xDA then readLeP 2
  else readLeP 4

/-- `read_str` (PMsgPack.cpp:300-306), also `read_name` (PMsgPack.cpp:355-369) -/
def readStrP (p : UInt8) : Prog Bytes := (strSizeP p).bind fun n => .block n fun b => .done (.ok b)

/-- `get_bin_size` (PMsgPack.cpp:291-298) -/
def binSizeP (p : UInt8) : Prog Nat :=
  if p = 0xC4 then readLeP 1
  else if p = 0xC5 then readLeP 2
  else readLeP 4

/-- `read_bin` (PMsgPack.cpp:308-314) -/
def readBinP (p : UInt8) : Prog Bytes := (binSizeP p).bind fun n => .block n fun b => .done (.ok b)

/-- `get_scope_info` (PMsgPack.cpp:327-353) -/
def readScopeInfoP (p : UInt8) : Prog (ScopeTy × Nat) :=
  if p &&& 0x40 ≠ 0 then
    (readBeP (if p &&& 1 ≠ 0 then 4 else 2)).bind fun n =>
      .done (.ok (if p &&& 2 ≠ 0 then .object else .array, n))
  else .done (.ok (if p &&& 0x10 ≠ 0 then .array else .object, (0x0F &&& p).toNat))

/-- The part of `PMsgPack::read` from the prefix on (PMsgPack.cpp:442-469) -/
def readPrefixedP (stack : List RScope) (name : Bytes) (p : UInt8) : Prog (Event × List RScope) :=
  if isScope p then
    (readScopeInfoP p).bind fun x => .done (.ok (⟨name, .scope x.1⟩, ⟨x.1, x.2⟩ :: stack))
  else if isStr p then (readStrP p).bind fun b => .done (.ok (⟨name, .val (.str b)⟩, stack))
  else if isScalar p then (readScalarP p).bind fun v => .done (.ok (⟨name, .val v⟩, stack))
  else if isBin p then (readBinP p).bind fun b => .done (.ok (⟨name, .val (.bin b)⟩, stack))
  else .done .err

/-- Reading the prefix byte, then the rest -/
def readItemP (stack : List RScope) (name : Bytes) : Prog (Event × List RScope) :=
  .block 1 fun b => readPrefixedP stack name (b.headD 0)

/-- `PMsgPack::read` (PMsgPack.cpp:414-469) -/
def readP : List RScope → Prog (Event × List RScope)
  | [] => readItemP [] []
  | sc :: stack =>
    if sc.elements < 1 then .done (.ok (⟨[], .scopeEnd⟩, stack))
    else
      let stack := { sc with elements := sc.elements - 1 } :: stack
      match sc.type with
      | .array => readItemP stack []
      | .object =>
        .block 1 fun b =>
          let p := b.headD 0
          (if isStr p then readStrP p else .done (.ok [])).bind fun name => readItemP stack name

/-- `PMsgPack::read` on a stream -/
def readS (cap : Nat) (x : List RScope × SIn) : Res (Event × (List RScope × SIn)) :=
  Stream.reading ((readP x.1).stream cap x.2)

/-- `Tree::read_source` with a `PMsgPack` and a stream -/
def loadS (cap : Nat) (old : SIn) (src : Bytes) : Res Root :=
  Stream.opened cap old src fun s => do
    let (r, _) ← Doc.load (readS cap) (2 * src.length + 1) ([], s)
    .ok r

end PMsgPack
end Srl
