import Verif.Model.Out

/-! # Output to streams that fail (include/Srl/Out.hpp:9-67, src/lib/Out.cpp:18-48)

The functions of `Model/Out.lean` once more, for a stream with a state. -/

namespace Srl.OutFail

open Heap (Hp Sys)
open Out (Stream Ticket St copy Op)

/-- How a `std::ostream` behaves that is not in the repository: which of the operations on it fail, and for writes after how
many bytes; whether one can move in it (a pipe or a terminal fails when asked to); whether it throws when it fails
(`ostream::exceptions`). -/
structure Behaviour where
  fate : Nat → Option Nat
  seekable : Bool
  throws : Bool

/-- A stream: contents and position, its state (`ostream::good`), and how many operations were made. -/
structure Dev where
  stream : Stream
  good : Bool
  count : Nat

/-- Setting the state to a failure -/
def fail (β : Behaviour) (d : Dev) : Res Dev := if β.throws then .err else .ok { d with good := false, count := d.count + 1 }

/-- `ostream::write`: without effect if the stream has failed before. -/
def Dev.write (β : Behaviour) (d : Dev) (b : Bytes) : Res Dev :=
  if !d.good then fail β d
  else match β.fate d.count with
    | none => do
      let s ← d.stream.write b
      .ok { d with stream := s, count := d.count + 1 }
    | some k => do
      let s ← d.stream.write (b.take k)
      fail β { d with stream := s }

/-- `ostream::seekp`: without effect if the stream has failed before. -/
def Dev.seek (β : Behaviour) (d : Dev) (pos : Nat) : Res Dev :=
  if !d.good then .ok d
  else if !β.seekable || (β.fate d.count).isSome then fail β d
  else .ok { d with stream := { d.stream with pos := pos }, count := d.count + 1 }

/-- `ostream::flush` -/
def Dev.flush (β : Behaviour) (d : Dev) : Res Dev :=
  if !d.good then .ok d
  else if (β.fate d.count).isSome then fail β d
  else .ok { d with count := d.count + 1 }

/-- `Out` with the stream; the field `stream` of `St` is not used. -/
abbrev FSt := St × Dev

/-- `Out::write_to_stream` (Out.cpp:37-48) -/
def writeToStream (β : Behaviour) (f : FSt) : Res FSt :=
  match f.1.start with
  | none => .ok f
  | some a => do
    let d ← f.2.write β (Out.peek f.1.heap.mem a (f.1.cap - f.1.left))
    .ok ({ f.1 with left := f.1.cap, crr := a, flushed := f.1.flushed + 1 }, d)

/-- The capacity checks of `Out::alloc` (Out.hpp:17-23) -/
def makeRoom (β : Behaviour) (sys : Sys) (f : FSt) (n : Nat) : Res FSt := do
  let f ← (if f.1.left < n then writeToStream β f else .ok f)
  if f.1.cap < n then do
    let o ← Out.incCap sys f.1 n
    .ok (o, f.2)
  else .ok f

/-- `Out::alloc` (Out.hpp:9-29) to a stream -/
def alloc (β : Behaviour) (sys : Sys) (f : FSt) (n : Nat) : Res (FSt × Nat) := do
  let f ← makeRoom β sys ({ f.1 with total := f.1.total + n }, f.2) n
  .ok (({ f.1 with left := f.1.left - n, crr := f.1.crr + n }, f.2), f.1.crr)

/-- `Out::write` of a block and the like (Out.hpp:31-40, 69-117) -/
def write (β : Behaviour) (sys : Sys) (f : FSt) (b : Bytes) : Res FSt := do
  let (f, a) ← alloc β sys f b.length
  .ok (copy f.1 a b, f.2)

/-- `Out::reserve` (Out.hpp:60-67) -/
def reserve (β : Behaviour) (sys : Sys) (f : FSt) (n : Nat) : Res (FSt × Ticket) := do
  let pos := f.1.total
  let (f, a) ← alloc β sys f n
  .ok ((copy f.1 a (List.replicate n 0), f.2), ⟨a, n, pos, f.1.flushed⟩)

/-- `Out::write` to reserved memory (Out.hpp:42-58). `tellp` of a stream one cannot move in, or that has failed, is -1; moving
there fails or is without effect, so which position it is does not matter. -/
def fill (β : Behaviour) (f : FSt) (t : Ticket) (b : Bytes) (offset : Nat) : Res FSt :=
  if t.size < offset + b.length then .ub
  else if t.seg == f.1.flushed then .ok (copy f.1 (t.mem + offset) b, f.2)
  else do
    let crr := f.2.stream.pos
    let d ← f.2.seek β (t.pos + offset)
    let d ← d.write β b
    let d ← d.seek β crr
    .ok (f.1, d)

/-- Any number of uses -/
def run (β : Behaviour) (sys : Sys) (f : FSt) (ts : List Ticket) : List Op → Res (FSt × List Ticket)
  | [] => .ok (f, ts)
  | .write b :: ops => do
    let f ← write β sys f b
    run β sys f ts ops
  | .reserve n :: ops => do
    let (f, t) ← reserve β sys f n
    run β sys f (ts ++ [t]) ops
  | .fill i k b :: ops =>
    match ts[i]? with
    | none => .ub
    | some t => do
      let f ← fill β f t b k
      run β sys f ts ops

/-- A whole document (`Out::set`, any uses, `Out::flush`; Out.cpp:8-16, 26-35): the stream afterwards. -/
def toDevice (β : Behaviour) (sys : Sys) (h : Hp) (ops : List Op) (d : Dev) : Res Dev := do
  let (f, _) ← run β sys (Out.set h true ⟨[], 0⟩, d) [] ops
  let f ← writeToStream β f
  f.2.flush β

end Srl.OutFail
