import Verif.Basic

/-! # Heap (include/Srl/Heap.h, include/Srl/Heap.hpp, src/lib/Heap.cpp)

Memory is a function from addresses to bytes. The current segment `crr_seg` always is the last
one of `used_segs` (both are set together, Heap.hpp:13-15, Heap.cpp:163-171, 212-214, and reset
together, Heap.cpp:219, 241), so it is not kept separately. The link objects that carry the
segments, and their recycling through `free_links`, are not modelled here; the segments that are
not parts of others (`sub_seg == false`) are those listed in `owned`, in the order of `used_links`.
The link objects, moves and the destructor are modelled in `Verif.Model.HeapLinks`, where C75
shows that they implement what is here. -/

namespace Srl.Heap

/-- `Heap::Segment` (Heap.h:58-70) -/
structure Seg where
  data : Nat
  left : Nat
  size : Nat
  deriving DecidableEq, Repr

/-- `Segment::pointer` (Heap.h:69) -/
def Seg.ptr (s : Seg) : Nat := s.data + s.size - s.left

/-- `operator new[]`: from the blocks handed out so far (address, size) and a size to the address
of a new block. -/
structure Sys where
  alloc : List (Nat × Nat) → Nat → Nat
  /-- the new block overlaps none of the others -/
  apart : ∀ bs n, ∀ b ∈ bs, alloc bs n + n ≤ b.1 ∨ b.1 + b.2 ≤ alloc bs n
  /-- and is aligned for every ordinary type -/
  aligned : ∀ bs n, alloc bs n % 16 = 0

structure Hp where
  cap : Nat
  /-- `chain.used_segs`, the last one first -/
  used : List Seg
  /-- `chain.free_segs` -/
  free : List Seg
  owned : List (Nat × Nat)
  mem : Nat → UInt8

/-- A new heap (Heap.h:75-88), in memory with any contents. -/
def new (mem : Nat → UInt8) : Hp := ⟨256, [], [], [], mem⟩

/-- `memset(a, 0, n)` -/
def zero (mem : Nat → UInt8) (a n : Nat) : Nat → UInt8 :=
  fun x => if a ≤ x ∧ x < a + n then 0 else mem x

/-- `Heap::put_mem` with `set_subsegment` (Heap.cpp:154-161, 12-19); `left` and `size` have
32 bits. -/
def put (h : Hp) (a n : Nat) : Hp :=
  { h with mem := zero h.mem a n, free := h.free ++ [⟨a, n % 2 ^ 32, n % 2 ^ 32⟩] }

/-- `struct Size` (Heap.cpp:41-54) -/
def fits (n align : Nat) (s : Seg) : Bool :=
  s.size ≥ n + align - 1 || (s.size ≥ n && s.data % align == 0)

/-- `SList::find_rm` (Heap.cpp:135-152) -/
def findRm (p : Seg → Bool) : List Seg → Option (Seg × List Seg)
  | [] => none
  | s :: l => if p s then some (s, l) else (findRm p l).map fun (x, l) => (x, s :: l)

/-- `Max_Cap` (Heap.h:73) -/
def maxCap : Nat := 262144

/-- The loop in Heap.cpp:201-203 -/
def capLoop : Nat → Nat → Nat → Res Nat
  | 0, _, _ => .fuel
  | fuel + 1, n, cap => if cap < n ∧ cap < maxCap then capLoop fuel n (cap * 2) else .ok cap

/-- The new capacity (Heap.cpp:198-204) -/
def nextCap (cap n : Nat) : Res Nat :=
  let cap := if cap < 1 then 1 else if cap * 2 < maxCap then cap * 2 else maxCap
  if n < maxCap ∧ cap < n then capLoop 20 n cap else .ok cap

/-- Returning the rest of the current segment (Heap.cpp:190-192) -/
def putRest (h : Hp) : Hp :=
  match h.used with
  | s :: _ => if s.left > 0 then put h s.ptr s.left else h
  | [] => h

/-- `Heap::alloc` (Heap.cpp:186-215) -/
def alloc (sys : Sys) (h : Hp) (n align : Nat) : Res Hp :=
  let h := putRest h
  match findRm (fits n align) h.free with
  | some (s, free) => .ok { h with free := free, used := s :: h.used }
  | none => do
    let cap ← nextCap h.cap n
    let size := if cap > n then cap else n
    let data := sys.alloc h.owned size
    .ok { h with cap := cap, used := ⟨data, size % 2 ^ 32, size % 2 ^ 32⟩ :: h.used,
                 owned := h.owned ++ [(data, size)] }

/-- Taking `n` bytes from the current segment (Heap.hpp:17-25). `dec` requires that there are
enough (assertion in Heap.h:68). -/
def take (h : Hp) (n align : Nat) : Res (Hp × Nat) :=
  match h.used with
  | [] => .ub
  | s :: used =>
    let rem := s.ptr % align
    let offset := if rem ≠ 0 then align - rem else 0
    if s.left < n + offset then .ub
    else .ok ({ h with used := { s with left := s.left - (n + offset) } :: used }, s.ptr + offset)

/-- `Heap::get_mem` (Heap.hpp:8-26) for `n` bytes of a type with this alignment -/
def get (sys : Sys) (h : Hp) (n align : Nat) : Res (Hp × Nat) :=
  match h.used with
  | [] => do
    let h ← alloc sys h n align
    take h n align
  | s :: _ =>
    if s.left < n + align - 1 then do
      let h ← alloc sys h n align
      take h n align
    else take h n align

/-- `SList::prepend` with a predicate (Heap.cpp:79-110), here `Size(size, 1)` -/
def insertSized (s : Seg) : List Seg → List Seg
  | [] => [s]
  | x :: l => if x.size ≥ s.size then s :: x :: l else x :: insertSized s l

/-- `Heap::clear` (Heap.cpp:217-242): every block obtained from the system is filled with zeros
and put into the free list. -/
def clear (h : Hp) : Hp :=
  { h with
    used := [],
    free := h.owned.foldl (fun l b => insertSized ⟨b.1, b.2 % 2 ^ 32, b.2 % 2 ^ 32⟩ l) [],
    mem := h.owned.foldl (fun m b => zero m b.1 (b.2 % 2 ^ 32)) h.mem }

end Srl.Heap
