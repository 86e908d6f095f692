import Verif.Basic

/-! # Memory sources (include/Srl/In.hpp, src/lib/In.cpp)

The unread part of a memory source is a list of bytes. For a memory source `In::set`
(src/lib/In.cpp:19-22) puts `end` one byte *behind* the end of the data, so the code may stand at
`start + size` and dereference it. `Mem.past` is what is found there. -/

namespace Srl

/-- Surroundings of a memory source, constant during parsing. -/
structure Mem where
  /-- byte at `start + size`; `none`: not readable (reading it is undefined behaviour) -/
  past : Option UInt8
  /-- numeric address of `start + size` -/
  lim : Nat

/-- A buffer not at the very top of the address space. (User space addresses on x86-64 are
below 2^47.) -/
def Mem.Sane (m : Mem) : Prop := m.lim < 2 ^ 63

namespace In

/-- `In::move` / `In::peek` / `In::fetch_data` (In.hpp:78-89, In.cpp:25-30) on a memory source.
`pos + steps` is computed on addresses; when it wraps around, the comparison with `end` is
meaningless and the position leaves the buffer: undefined behaviour.
(The address of `pos` is `lim - s.length`.) -/
def move (m : Mem) (steps : Nat) (s : Bytes) : Res Bytes :=
  if m.lim + steps ≥ 2 ^ 64 + s.length then .ub
  else if steps > s.length then .err
  else .ok (s.drop steps)

/-- `In::read_block` (In.hpp:96-103) -/
def readBlock (m : Mem) (steps : Nat) (s : Bytes) : Res (Bytes × Bytes) := do
  let s' ← move m steps s
  return (s.take steps, s')

/-- `*In::pointer()` (In.hpp:167-170) -/
def cur (m : Mem) (s : Bytes) : Res UInt8 :=
  match s with
  | b :: _ => .ok b
  | [] => match m.past with
    | some b => .ok b
    | none => .ub

/-- `In::try_peek` (In.hpp:91-94) on a memory source -/
def tryPeek (steps : Nat) (s : Bytes) : Bool := steps ≤ s.length

end In
end Srl
