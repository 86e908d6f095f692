import Verif.Model.Heap

/-! # The link objects of heaps (include/Srl/Heap.h, include/Srl/Heap.hpp, src/lib/Heap.cpp)

`Verif.Model.Heap` treats the lists of a heap as lists. Here they are what they are in the code:
objects obtained with `new` that point to each other, several heaps in one memory, moves,
destructors and arrays the system refuses. Following a pointer to an object that does not exist
(any more), deleting it, and deleting an array that does not exist are `Res.ub`.

The objects are numbered in the order of their creation and numbers are not used again, so that
a pointer left behind never becomes valid by chance. -/

namespace Srl.HeapLinks

open Heap (Sys zero maxCap nextCap)

/-- Which `next` of an object: that of the `ChainLink` itself or that of the `SegLink` inside
(Heap.cpp:9-10) -/
inductive Kind
  | chain
  | seg
  deriving DecidableEq, Repr

/-- A `ChainLink` (Heap.h:12-15, Heap.cpp:9-10) with the `SegLink` and the `Segment`
(Heap.h:58-70) in it; `none` is `nullptr`. -/
structure Link where
  cnext : Option Nat := none
  snext : Option Nat := none
  data : Option Nat := none
  left : Nat := 0
  size : Nat := 0
  sub : Bool := false
  deriving DecidableEq, Repr

def Link.next (l : Link) : Kind → Option Nat
  | .chain => l.cnext
  | .seg => l.snext

def Link.setNext (l : Link) (k : Kind) (p : Option Nat) : Link :=
  match k with
  | .chain => { l with cnext := p }
  | .seg => { l with snext := p }

/-- The memory all heaps live in: the link objects that exist, how many have been created, the
arrays that exist (address, size), and the contents. -/
structure World where
  links : Nat → Option Link
  count : Nat
  blocks : List (Nat × Nat)
  mem : Nat → UInt8

/-- Following a pointer -/
def World.look (w : World) (p : Nat) : Res Link :=
  match w.links p with
  | none => .ub
  | some l => .ok l

/-- Changing an object through a pointer -/
def World.upd (w : World) (p : Nat) (f : Link → Link) : Res World :=
  match w.links p with
  | none => .ub
  | some l => .ok { w with links := fun q => if q = p then some (f l) else w.links q }

/-- `Aux::SList` (Heap.h:10-31) -/
structure SList where
  front : Option Nat := none
  back : Option Nat := none
  deriving DecidableEq, Repr

/-- `SList::append` (Heap.cpp:63-76) -/
def append (k : Kind) (w : World) (s : SList) (p : Nat) : Res (World × SList) :=
  match s.back with
  | none => do
    let w ← w.upd p (·.setNext k none)
    .ok (w, ⟨some p, some p⟩)
  | some b => do
    let w ← w.upd b (·.setNext k (some p))
    let w ← w.upd p (·.setNext k none)
    .ok (w, ⟨s.front, some p⟩)

/-- `prev->next = x` unless `prev` is null (Heap.cpp:117-119, 93-97) -/
def relink (k : Kind) (w : World) (prev x : Option Nat) : Res World :=
  match prev with
  | none => .ok w
  | some q => w.upd q (·.setNext k x)

/-- `SList::remove` (Heap.cpp:112-121) -/
def remove (k : Kind) (w : World) (s : SList) (prev : Option Nat) (p : Nat) :
    Res (World × SList) := do
  let l ← w.look p
  let w ← relink k w prev (l.next k)
  let w ← w.upd p (·.setNext k none)
  .ok (w, ⟨if s.front = some p then l.next k else s.front, if s.back = some p then prev else s.back⟩)

/-- The loop of `SList::find_rm` (Heap.cpp:140-151) -/
def findLoop (k : Kind) (f : Link → Bool) (w : World) (s : SList) :
    Nat → Option Nat → Option Nat → Res (World × SList × Option Nat)
  | 0, _, _ => .fuel
  | _ + 1, _, none => .ok (w, s, none)
  | fuel + 1, prev, some p => do
    let l ← w.look p
    if f l then do
      let (w, s) ← remove k w s prev p
      .ok (w, s, some p)
    else findLoop k f w s fuel (some p) (l.next k)

/-- `SList::find_rm` (Heap.cpp:134-152). No list is longer than the number of objects. -/
def findRm (k : Kind) (f : Link → Bool) (w : World) (s : SList) :
    Res (World × SList × Option Nat) :=
  findLoop k f w s (w.count + 1) none s.front

/-- The loop of `SList::prepend` with a predicate (Heap.cpp:87-107) -/
def insertLoop (f : Link → Bool) (w : World) (s : SList) (p : Nat) :
    Nat → Option Nat → Option Nat → Res (World × SList)
  | 0, _, _ => .fuel
  | _ + 1, _, none => do
    let w ← w.upd p (·.setNext .seg none)
    let w ← relink .seg w s.back (some p)
    .ok (w, ⟨s.front, some p⟩)
  | fuel + 1, prev, some c => do
    let l ← w.look c
    if f l then do
      let w ← w.upd p (·.setNext .seg (some c))
      let w ← relink .seg w prev (some p)
      .ok (w, ⟨if prev.isNone then some p else s.front, s.back⟩)
    else insertLoop f w s p fuel (some c) (l.next .seg)

/-- `SList::prepend` with a predicate (Heap.cpp:78-110). Into an empty list the object goes as it
is, its `next` is not touched. -/
def insert (f : Link → Bool) (w : World) (s : SList) (p : Nat) : Res (World × SList) :=
  match s.back with
  | none => .ok (w, ⟨some p, some p⟩)
  | some _ => insertLoop f w s p (w.count + 1) none s.front

/-- A `Heap` (Heap.h:75-88) -/
structure HeapObj where
  cap : Nat := 256
  crr : Option Nat := none
  usedSegs : SList := {}
  freeSegs : SList := {}
  usedLinks : SList := {}
  freeLinks : SList := {}
  deriving DecidableEq, Repr

/-- `Chain::get_link` (Heap.cpp:173-184) with `Any` (Heap.cpp:35-39) -/
def getLink (w : World) (h : HeapObj) : Res (World × HeapObj × Nat) := do
  let (w, fl, r) ← findRm .chain (fun _ => true) w h.freeLinks
  match r with
  | some p => do
    let (w, ul) ← append .chain w h.usedLinks p
    .ok (w, { h with usedLinks := ul, freeLinks := fl }, p)
  | none => do
    let p := w.count
    let w := { w with links := fun q => if q = p then some {} else w.links q, count := p + 1 }
    let (w, ul) ← append .chain w h.usedLinks p
    .ok (w, { h with usedLinks := ul, freeLinks := fl }, p)

/-- `set_subsegment` (Heap.cpp:12-19) but for the `memset` -/
def Link.setSub (l : Link) (a n : Nat) : Link :=
  { l with data := some a, left := n % 2 ^ 32, size := n % 2 ^ 32, sub := true }

/-- `set_segment` (Heap.cpp:21-27) -/
def Link.setSeg (l : Link) (a n : Nat) : Link :=
  { l with data := some a, left := n % 2 ^ 32, size := n % 2 ^ 32, sub := false }

/-- `Heap::put_mem` (Heap.cpp:154-161) -/
def put (w : World) (h : HeapObj) (a n : Nat) : Res (World × HeapObj) := do
  let (w, h, p) ← getLink w h
  let w ← { w with mem := zero w.mem a n }.upd p (·.setSub a n)
  let (w, fs) ← append .seg w h.freeSegs p
  .ok (w, { h with freeSegs := fs })

/-- The address of a pointer; that of `nullptr` is 0. -/
def Link.addr (l : Link) : Nat := l.data.getD 0

/-- `Segment::pointer` (Heap.h:69) -/
def Link.ptr (l : Link) : Nat := l.addr + l.size - l.left

/-- `struct Size` (Heap.cpp:41-54) -/
def fits (n align : Nat) (l : Link) : Bool :=
  l.size ≥ n + align - 1 || (l.size ≥ n && l.addr % align == 0)

/-- Returning the rest of the current segment (Heap.cpp:190-192) -/
def putRest (w : World) (h : HeapObj) : Res (World × HeapObj) :=
  match h.crr with
  | none => .ok (w, h)
  | some c => do
    let l ← w.look c
    if l.left > 0 then put w h l.ptr l.left else .ok (w, h)

/-- A new array and the segment for it (Heap.cpp:198-214). With `refused`, `new uint8_t[sz]`
throws `std::bad_alloc`: the object for the segment is already among the used ones. -/
def grow (sys : Sys) (w : World) (h : HeapObj) (n : Nat) (refused : Bool) :
    Res (World × HeapObj × Option Nat) := do
  let cap ← nextCap h.cap n
  let size := if cap > n then cap else n
  let (w, h, p) ← getLink w { h with cap := cap }
  if refused then .ok (w, h, none)
  else do
    let a := sys.alloc w.blocks size
    let w ← { w with blocks := w.blocks ++ [(a, size)] }.upd p (·.setSeg a size)
    let (w, us) ← append .seg w h.usedSegs p
    .ok (w, { h with usedSegs := us }, some p)

/-- `Heap::alloc` (Heap.cpp:186-215) with `find_free_seg` (Heap.cpp:163-171) -/
def alloc (sys : Sys) (w : World) (h : HeapObj) (n align : Nat) (refused : Bool) :
    Res (World × HeapObj × Option Nat) := do
  let (w, h) ← putRest w h
  if h.freeSegs.front.isNone then grow sys w h n refused
  else do
    let (w, fs, r) ← findRm .seg (fits n align) w h.freeSegs
    match r with
    | some p => do
      let (w, us) ← append .seg w h.usedSegs p
      .ok (w, { h with freeSegs := fs, usedSegs := us }, some p)
    | none => grow sys w { h with freeSegs := fs } n refused

/-- Taking `n` bytes from the current segment (Heap.hpp:17-25), which has to have them
(assertion in Heap.h:68) -/
def take (w : World) (h : HeapObj) (n align : Nat) : Res (World × HeapObj × Option Nat) :=
  match h.crr with
  | none => .ub
  | some c => do
    let l ← w.look c
    let rem := l.ptr % align
    let offset := if rem ≠ 0 then align - rem else 0
    if l.left < n + offset then .ub
    else do
      let w ← w.upd c fun l => { l with left := l.left - (n + offset) }
      .ok (w, h, some (l.ptr + offset))

/-- Has the current segment enough room? (Heap.hpp:13) -/
def enough (w : World) (h : HeapObj) (n align : Nat) : Res Bool :=
  match h.crr with
  | none => .ok false
  | some c => do
    let l ← w.look c
    .ok (decide (¬ l.left < n + align - 1))

/-- `Heap::get_mem` (Heap.hpp:8-26) for `n` bytes of a type with this alignment; `none` if it
throws `std::bad_alloc`. -/
def get (sys : Sys) (w : World) (h : HeapObj) (n align : Nat) (refused : Bool) :
    Res (World × HeapObj × Option Nat) := do
  if ← enough w h n align then take w h n align
  else do
    let (w, h, r) ← alloc sys w h n align refused
    match r with
    | none => .ok (w, h, none)
    | some p => take w { h with crr := some p } n align

/-- `reset_segment` (Heap.cpp:29-34) but for the `memset` -/
def Link.reset (l : Link) : Link := { l with left := l.size, snext := none }

/-- The loop of `Heap::clear` (Heap.cpp:225-240) -/
def clearLoop : Nat → World → HeapObj → Option Nat → Option Nat → Res (World × HeapObj)
  | 0, _, _, _, _ => .fuel
  | _ + 1, w, h, _, none => .ok (w, h)
  | fuel + 1, w, h, prev, some p => do
    let l ← w.look p
    if l.sub then do
      let (w, ul) ← remove .chain w h.usedLinks prev p
      let (w, fl) ← append .chain w h.freeLinks p
      clearLoop fuel w { h with usedLinks := ul, freeLinks := fl } prev l.cnext
    else do
      let w ← { w with mem := zero w.mem l.addr l.size }.upd p Link.reset
      let (w, fs) ← insert (fits l.size 1) w h.freeSegs p
      clearLoop fuel w { h with freeSegs := fs } (some p) l.cnext

/-- `Heap::clear` (Heap.cpp:217-243) -/
def clear (w : World) (h : HeapObj) : Res (World × HeapObj) := do
  let (w, h) ← clearLoop (w.count + 1) w { h with usedSegs := {}, freeSegs := {} } none
    h.usedLinks.front
  .ok (w, { h with crr := none })

/-- `delete link` with `~Segment` (Heap.cpp:281-287) -/
def World.delete (w : World) (p : Nat) : Res World :=
  match w.links p with
  | none => .ub
  | some l =>
    let w := { w with links := fun q => if q = p then none else w.links q }
    match l.data with
    | none => .ok w
    | some a =>
      if l.sub then .ok w
      else if w.blocks.any (·.1 == a) then .ok { w with blocks := w.blocks.filter (·.1 != a) }
      else .ub

/-- The loop of `destroy` over one list (Heap.cpp:251-258) -/
def freeLoop : Nat → World → Option Nat → Res World
  | 0, _, _ => .fuel
  | _ + 1, w, none => .ok w
  | fuel + 1, w, some p => do
    let l ← w.look p
    let w ← w.delete p
    freeLoop fuel w l.cnext

/-- `Heap::destroy` (Heap.cpp:249-265), also the destructor (Heap.cpp:244-247) -/
def destroy (w : World) (h : HeapObj) : Res (World × HeapObj) := do
  let w ← freeLoop (w.count + 1) w h.usedLinks.front
  let w ← freeLoop (w.count + 1) w h.freeLinks.front
  .ok (w, { h with crr := none, usedSegs := {}, freeSegs := {}, usedLinks := {}, freeLinks := {} })

/-- The source of a move (Heap.cpp:275-276) -/
def HeapObj.left (h : HeapObj) : HeapObj := { cap := h.cap }

/-- Several heaps in one memory -/
structure State where
  w : World
  heaps : Nat → Option HeapObj

def State.set (s : State) (w : World) (i : Nat) (h : Option HeapObj) : State :=
  ⟨w, fun j => if j = i then h else s.heaps j⟩

/-- What can be done with heaps -/
inductive Op
  /-- `Heap i;` (Heap.h:40) -/
  | create (i : Nat)
  /-- `i.get_mem` (Heap.hpp:8-26), with an array that is refused if one is needed -/
  | get (i n align : Nat) (refused : Bool)
  /-- `i.put_mem` (Heap.cpp:154-161) -/
  | put (i a n : Nat)
  | clear (i : Nat)
  /-- `Heap i(std::move(j));` (Heap.h:43) -/
  | construct (i j : Nat)
  /-- `i = std::move(j);` (Heap.cpp:267-279) -/
  | assign (i j : Nat)
  /-- `Heap i(j);` (Heap.h:41): the pointers are copied. -/
  | copy (i j : Nat)
  /-- The end of the life of `i` (Heap.cpp:244-247) -/
  | destroy (i : Nat)

/-- `operator=` (Heap.cpp:267-279). The source is looked at after `destroy`: the two may be the
same heap. -/
def assign (s : State) (i j : Nat) : Res State :=
  match s.heaps i with
  | none => .ub
  | some t => do
    let (w, t) ← destroy s.w t
    let s := s.set w i (some t)
    match s.heaps j with
    | none => .ub
    | some m => .ok ((s.set w i (some m)).set w j (some m.left))

/-- One operation; a block is what it returns. Operations on heaps that do not exist, and making
one that exists, are not correct. -/
def exec (sys : Sys) (s : State) : Op → Res (State × Option Nat)
  | .create i =>
    match s.heaps i with
    | some _ => .ub
    | none => .ok (s.set s.w i (some {}), none)
  | .get i n align refused =>
    match s.heaps i with
    | none => .ub
    | some h => do
      let (w, h, r) ← get sys s.w h n align refused
      .ok (s.set w i (some h), r)
  | .put i a n =>
    match s.heaps i with
    | none => .ub
    | some h => do
      let (w, h) ← put s.w h a n
      .ok (s.set w i (some h), none)
  | .clear i =>
    match s.heaps i with
    | none => .ub
    | some h => do
      let (w, h) ← clear s.w h
      .ok (s.set w i (some h), none)
  | .construct i j =>
    match s.heaps i with
    | some _ => .ub
    | none => do
      let s ← assign (s.set s.w i (some {})) i j
      .ok (s, none)
  | .assign i j => do
    let s ← assign s i j
    .ok (s, none)
  | .copy i j =>
    match s.heaps i, s.heaps j with
    | none, some m => .ok (s.set s.w i (some m), none)
    | _, _ => .ub
  | .destroy i =>
    match s.heaps i with
    | none => .ub
    | some h => do
      let (w, _) ← destroy s.w h
      .ok (s.set w i none, none)

/-- Several operations -/
def execs (sys : Sys) : State → List Op → Res State
  | s, [] => .ok s
  | s, o :: os => do
    let (s, _) ← exec sys s o
    execs sys s os

/-- No heap, no objects, no arrays -/
def start (mem : Nat → UInt8) : State := ⟨⟨fun _ => none, 0, [], mem⟩, fun _ => none⟩

end Srl.HeapLinks
