import Verif.Model.Heap

/-! # Output (include/Srl/Out.h, include/Srl/Out.hpp, src/lib/Out.cpp) -/

namespace Srl.Out

open Heap (Hp Sys)

/-- A seekable output stream: what it contains and where the next byte goes. -/
structure Stream where
  contents : Bytes
  pos : Nat
  deriving DecidableEq, Repr

/-- `ostream::write`: replaces what is at the position, or extends the contents. Writing behind
the end depends on the kind of stream and counts as undefined. -/
def Stream.write (s : Stream) (b : Bytes) : Res Stream :=
  if s.pos > s.contents.length then .ub
  else .ok ⟨s.contents.take s.pos ++ b ++ s.contents.drop (s.pos + b.length), s.pos + b.length⟩

/-- `Out::Ticket` (Out.h:44-58) -/
structure Ticket where
  mem : Nat
  size : Nat
  pos : Nat
  seg : Nat
  deriving DecidableEq, Repr

/-- `Out` with its `State` (Out.h:60-75) and the stream written to. Null pointers are address 0
in `crr`. -/
structure St where
  heap : Hp
  total : Nat
  left : Nat
  cap : Nat
  flushed : Nat
  crr : Nat
  start : Option Nat
  streaming : Bool
  stream : Stream

/-- `Out::set` (Out.cpp:8-16) -/
def set (h : Hp) (streaming : Bool) (s : Stream) : St :=
  ⟨Heap.clear h, 0, 0, 0, 0, 0, none, streaming, s⟩

/-- `memcpy` into memory -/
def poke (mem : Nat → UInt8) (a : Nat) (b : Bytes) : Nat → UInt8 :=
  fun x => if a ≤ x ∧ x < a + b.length then b.getD (x - a) 0 else mem x

/-- The `n` bytes from address `a` on -/
def peek (mem : Nat → UInt8) (a n : Nat) : Bytes := (List.range' a n).map mem

/-- `Out::write_to_stream` (Out.cpp:37-48) -/
def writeToStream (o : St) : Res St :=
  match o.start with
  | none => .ok o
  | some a => do
    let s ← o.stream.write (peek o.heap.mem a (o.cap - o.left))
    .ok { o with stream := s, left := o.cap, crr := a, flushed := o.flushed + 1 }

/-- `Out::inc_cap` (Out.cpp:18-24) -/
def incCap (sys : Sys) (o : St) (n : Nat) : Res St := do
  let cap := if 1024 < n then n else 1024
  let (h, a) ← Heap.get sys o.heap cap 1
  .ok { o with heap := h, cap := cap, start := some a, left := cap, crr := a }

/-- The streaming part of `Out::alloc` up to the capacity checks (Out.hpp:17-23) -/
def makeRoom (sys : Sys) (o : St) (n : Nat) : Res St := do
  let o ← (if o.left < n then writeToStream o else .ok o)
  if o.cap < n then incCap sys o n else .ok o

/-- `Out::alloc` (Out.hpp:9-29) -/
def alloc (sys : Sys) (o : St) (n : Nat) : Res (St × Nat) := do
  let o := { o with total := o.total + n }
  if !o.streaming then
    let (h, a) ← Heap.get sys o.heap n 1
    .ok ({ o with heap := h }, a)
  else
    let o ← makeRoom sys o n
    .ok ({ o with left := o.left - n, crr := o.crr + n }, o.crr)

/-- Copying bytes to an address -/
def copy (o : St) (a : Nat) (b : Bytes) : St :=
  { o with heap := { o.heap with mem := poke o.heap.mem a b } }

/-- `Out::write` of a block; also `write_byte`, `write` of an object, `write_times` and every
replacement in `write_substitute`, which fill the allocated memory in their own way
(Out.hpp:31-40, 69-117). -/
def write (sys : Sys) (o : St) (b : Bytes) : Res St := do
  let (o, a) ← alloc sys o b.length
  .ok (copy o a b)

/-- `Out::reserve` (Out.hpp:60-67) -/
def reserve (sys : Sys) (o : St) (n : Nat) : Res (St × Ticket) := do
  let pos := o.total
  let (o, a) ← alloc sys o n
  .ok (copy o a (List.replicate n 0), ⟨a, n, pos, o.flushed⟩)

/-- `Out::write` to reserved memory (Out.hpp:42-58). The reservation must be large enough
(assertion). -/
def fill (o : St) (t : Ticket) (b : Bytes) (offset : Nat) : Res St :=
  if t.size < offset + b.length then .ub
  else if !o.streaming || t.seg == o.flushed then .ok (copy o (t.mem + offset) b)
  else do
    let s ← Stream.write { o.stream with pos := t.pos + offset } b
    .ok { o with stream := { s with pos := o.stream.pos } }

/-- Copying bytes into the result vector; outside of it this is undefined. -/
def paste (buf : Bytes) (pos : Nat) (b : Bytes) : Res Bytes :=
  if pos + b.length > buf.length then .ub
  else .ok (buf.take pos ++ b ++ buf.drop (pos + b.length))

/-- The loop of `Out::write_to_buffer` (Out.cpp:56-64); `pos` has 32 bits. -/
def gather (mem : Nat → UInt8) : List Heap.Seg → Nat → Bytes → Res Bytes
  | [], _, buf => .ok buf
  | s :: l, pos, buf => do
    let b := peek mem s.data (s.size - s.left)
    let buf ← paste buf pos b
    gather mem l ((pos + b.length) % 2 ^ 32) buf

/-- `vector::resize` -/
def resize (buf : Bytes) (n : Nat) : Bytes := buf.take n ++ List.replicate (n - buf.length) 0

/-- `Out::flush` to memory (Out.cpp:26-35, 50-64): the new contents of the vector. -/
def deliver (o : St) (buf : Bytes) : Res Bytes :=
  gather o.heap.mem o.heap.used.reverse 0 (resize buf o.total)

/-- One use of an output by a parser. Reservations are numbered in order. -/
inductive Op where
  | write (b : Bytes)
  | reserve (n : Nat)
  | fill (ticket : Nat) (offset : Nat) (b : Bytes)

/-- Any number of uses. -/
def run (sys : Sys) (o : St) (ts : List Ticket) : List Op → Res (St × List Ticket)
  | [] => .ok (o, ts)
  | .write b :: ops => do
    let o ← write sys o b
    run sys o ts ops
  | .reserve n :: ops => do
    let (o, t) ← reserve sys o n
    run sys o (ts ++ [t]) ops
  | .fill i k b :: ops =>
    match ts[i]? with
    | none => .ub
    | some t => do
      let o ← fill o t b k
      run sys o ts ops

/-- A whole document written to a vector. -/
def toMemory (sys : Sys) (h : Hp) (ops : List Op) (buf : Bytes) : Res Bytes := do
  let (o, _) ← run sys (set h false ⟨[], 0⟩) [] ops
  deliver o buf

/-- A whole document written to a stream. -/
def toStream (sys : Sys) (h : Hp) (ops : List Op) (s : Stream) : Res Stream := do
  let (o, _) ← run sys (set h true s) [] ops
  let o ← writeToStream o
  .ok o.stream

end Srl.Out
