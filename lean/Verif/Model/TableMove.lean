import Verif.Model.HTable

/-! # Moving hash tables (include/Srl/Hash.h, include/Srl/Hash.hpp)

Several tables, numbered, each with a heap of its own (`heap`, Hash.h:117). The bucket array and
the entries of a table are memory of some heap: of its own, unless it was moved into, as moving
takes the pointers but not the heap (Hash.hpp:11-29).

What the heaps hold is in `Srl.Heap` and the contents of the tables in `Srl.HTable`; here a heap is
the number of times it was given up, by `Heap::clear` or by its destructor. Memory taken before
that is no longer the table's: any access to it is undefined behaviour. (Memory of a cleared heap
is zeroed and handed out again, Heap.cpp:217-240, memory of a destroyed heap is released.)

Keys or values have destructors, as those of the tables this library stores do (`std::string`
keys): `destroy_all` visits all the entries (Hash.hpp:370-381). All tables have the same hash
function and load factor. -/

namespace Srl.TableMove

open HTable (Tbl Op Ans Cfg)

variable {K V : Type}

/-- Memory of heap `home`, taken after it had been given up `age` times -/
structure Place where
  home : Nat
  age : Nat
  deriving DecidableEq, Repr

/-- A table with the places its pointers lead to -/
structure Slot (K V : Type) where
  tbl : Tbl K V
  /-- the bucket array -/
  arr : Place
  /-- the entries and the entry cache, and arrays given to the heap by `put_mem` (Hash.hpp:87) -/
  mem : List Place
  /-- the entries in the array have been destroyed -/
  dead : Bool

/-- All tables, how often the heap of each has been given up, and the next unused address -/
structure World (K V : Type) where
  slot : Nat → Slot K V
  age : Nat → Nat
  fresh : Nat

/-- The memory is still the table's. -/
def World.live (w : World K V) (p : Place) : Bool := w.age p.home == p.age

def World.put (w : World K V) (i : Nat) (s : Slot K V) : World K V :=
  { w with slot := fun k => if k = i then s else w.slot k }

/-- The heap of table `i` gives up its memory. -/
def World.giveUp (w : World K V) (i : Nat) : World K V :=
  { w with age := fun k => if k = i then w.age k + 1 else w.age k }

/-- Everything the table points to can be accessed. -/
def World.safe (w : World K V) (s : Slot K V) : Bool := (s.arr :: s.mem).all w.live

/-- Does the operation read what the table points to? `insert_hash` starts over when `limit` is 0
(Hash.hpp:165-167, 51-57), the iterators ask for the array only (Hash.hpp:422-447), all others do
nothing without elements (Hash.hpp:92-97, 117-119, 215-220, 238-245, 279-284, 343-348). -/
def touches (t : Tbl K V) : Op K V → Bool
  | .insert _ _ => t.limit ≠ 0
  | .upsert _ _ => t.limit ≠ 0
  | .iterate => t.table ≠ none
  | .size => false
  | _ => t.elements ≠ 0

/-- `HTable(buckets)` (Hash.h:47-48) -/
def fresh (w : World K V) (i b : Nat) : Slot K V := ⟨HTable.new b, ⟨i, w.age i⟩, [], false⟩

/-- The beginning: table `i` is empty and has `buckets i` buckets. -/
def start (buckets : Nat → Nat) : World K V :=
  ⟨fun i => ⟨HTable.new (buckets i), ⟨i, 0⟩, [], false⟩, fun _ => 0, 0⟩

/-- `clear` (Hash.hpp:215-227). Only an array in the own heap is zeroed with it. -/
def clear (w : World K V) (i : Nat) : World K V :=
  let s := w.slot i
  if s.tbl.elements = 0 then w
  else
    let w := w.giveUp i
    if s.arr.home = i then w.put i ⟨HTable.clear s.tbl, ⟨i, w.age i⟩, [], false⟩
    else
      w.put i { s with tbl := { s.tbl with cache := [], elements := 0, limit := 0 }, mem := [],
                       dead := true }

/-- Where the pointers of a table lead after an insertion (Hash.hpp:48-89, 160-213) -/
def inserted (w : World K V) (i : Nat) (t : Tbl K V) : Slot K V :=
  let s := w.slot i
  let own : Place := ⟨i, w.age i⟩
  if s.tbl.limit = 0 then ⟨t, own, [own], false⟩
  else if s.tbl.elements ≥ s.tbl.limit then ⟨t, own, s.arr :: own :: s.mem, s.dead⟩
  else ⟨t, s.arr, own :: s.mem, s.dead⟩

/-- The table with its pointers after an operation other than `clear` -/
def after (w : World K V) (i : Nat) (t : Tbl K V) : Op K V → Slot K V
  | .insert _ _ => inserted w i t
  | .upsert _ _ => inserted w i t
  | _ => { w.slot i with tbl := t }

/-- An operation of `Srl.HTable` on table `i` -/
def onTable [DecidableEq K] (cfg : Cfg K) (w : World K V) (i : Nat) (o : Op K V) :
    Res (World K V × Ans K V) :=
  let s := w.slot i
  if touches s.tbl o && !w.safe s then .ub
  else match o with
    | .clear => .ok (clear w i, .none)
    | o =>
      if touches s.tbl o && s.dead then .ub
      else do
        let (t, a) ← HTable.step cfg { s.tbl with fresh := w.fresh } o
        .ok ({ w.put i (after w i t o) with fresh := t.fresh }, a)

/-- `destroy_all` (Hash.hpp:370-381): defined if all entries can be visited -/
def destroyAll (w : World K V) (i : Nat) : Res Unit :=
  if (w.slot i).tbl.elements ≠ 0 ∧ !w.safe (w.slot i) then .ub else .ok ()

/-- What is left of a table that was moved from (Hash.hpp:19-20, 26): the pointer to the array and
the heap stay. -/
def husk (s : Slot K V) : Slot K V :=
  { s with tbl := { s.tbl with limit := 0, elements := 0, cache := [] } }

/-- Move assignment `j = std::move(i)` (Hash.hpp:11-29); after `renew j` also move construction
(Hash.h:55). Moving a table to itself destroys its entries and leaves it empty. -/
def move (w : World K V) (i j : Nat) : Res (World K V) := do
  destroyAll w j
  if i = j then .ok (w.put i { husk (w.slot i) with dead := true })
  else .ok ((w.put j (w.slot i)).put i (husk (w.slot i)))

/-- The destructor (Hash.h:50) with that of the heap; a new table with `b` buckets takes the
number. -/
def renew (w : World K V) (i b : Nat) : Res (World K V) := do
  destroyAll w i
  let w := w.giveUp i
  .ok (w.put i (fresh w i b))

/-- What a program does with its tables -/
inductive MOp (K V : Type) where
  | on (i : Nat) (o : Op K V)
  | move (i j : Nat)
  | renew (i buckets : Nat)

def step [DecidableEq K] (cfg : Cfg K) (w : World K V) : MOp K V → Res (World K V × Ans K V)
  | .on i o => onTable cfg w i o
  | .move i j => do
    let w ← move w i j
    .ok (w, .none)
  | .renew i b => do
    let w ← renew w i b
    .ok (w, .none)

def run [DecidableEq K] (cfg : Cfg K) (w : World K V) : List (MOp K V) →
    Res (World K V × List (Ans K V))
  | [] => .ok (w, [])
  | o :: os => do
    let (w, a) ← step cfg w o
    let (w, as) ← run cfg w os
    .ok (w, a :: as)

/-- The answers only -/
def answers [DecidableEq K] (cfg : Cfg K) (buckets : Nat → Nat) (os : List (MOp K V)) :
    Res (List (Ans K V)) := do
  let (_, as) ← run cfg (start buckets) os
  .ok as

end Srl.TableMove
