import Verif.Basic

/-! # Hash table (include/Srl/Hash.h, include/Srl/Hash.hpp)

A chain of entries linked by `next` is a list. Every entry carries the address of its memory, so
that pointers handed out (`Val*`) can be followed. New memory comes from the entry cache or from
the heap; the heap is reduced here to a counter of addresses (that its blocks never overlap is
the subject of `Srl.Heap`). Sizes are unbounded numbers: tables of `2^32` buckets or more (where
the 32-bit loop counters of Hash.hpp:64,247,289 would wrap) are not covered. -/

namespace Srl.HTable

variable {K V : Type}

/-- `HTable::Entry` (Hash.h:96-105) -/
structure Entry (K V : Type) where
  addr : Nat
  hash : UInt64
  key : K
  val : V
  deriving DecidableEq, Repr

/-- The members of `HTable` (Hash.h:107-117). `table = none`: null pointer. -/
structure Tbl (K V : Type) where
  cap : Nat
  limit : Nat
  elements : Nat
  table : Option (List (List (Entry K V)))
  /-- `mem_cache`, the back first -/
  cache : List Nat
  /-- next unused heap address -/
  fresh : Nat
  deriving DecidableEq, Repr

/-- What does not change: the hash function, and `n ↦ (size_t)(n * load_factor)` (Hash.hpp:45),
of which nothing is assumed. -/
structure Cfg (K : Type) where
  hash : K → UInt64
  scale : Nat → Nat

/-- `HTable(buckets, load_factor)` (Hash.h:47-48) -/
def new (buckets : Nat) : Tbl K V := ⟨buckets, 0, 0, none, [], 0⟩

/-- `get_bucket` (Hash.hpp:31-39) for a non-zero capacity -/
def bucket (cap : Nat) (hash : UInt64) : Nat :=
  (if cap ≤ 2 ^ 32 - 1 then hash ^^^ (hash >>> 32) else hash).toNat % cap

/-- `table[bucket]`: a null or out-of-bounds access is undefined, as is a zero capacity. -/
def at_ (t : Tbl K V) (i : Nat) : Res (List (Entry K V)) :=
  match t.table with
  | none => .ub
  | some tb => match tb[i]? with
    | none => .ub
    | some c => .ok c

/-- `set_capacity` (Hash.hpp:41-46) -/
def setCapacity (cfg : Cfg K) (t : Tbl K V) (n : Nat) : Tbl K V :=
  { t with cap := max 1 n, limit := max (t.elements + 10) (cfg.scale n) }

/-- Linking one entry to the end of its chain in the new table (Hash.hpp:67-79) -/
def relink (cap : Nat) (nt : List (List (Entry K V))) (e : Entry K V) : List (List (Entry K V)) :=
  nt.modify (bucket cap e.hash) (· ++ [e])

/-- `redistribute` (Hash.hpp:48-89) -/
def redistribute (cfg : Cfg K) (t : Tbl K V) : Res (Tbl K V) :=
  if t.limit = 0 then
    let t := setCapacity cfg t t.cap
    .ok { t with table := some (List.replicate t.cap []) }
  else
    match t.table with
    | none => .ub
    | some tb =>
      let t := setCapacity cfg t (t.cap * 2)
      .ok { t with table := some (tb.flatten.foldl (relink t.cap) (List.replicate t.cap [])) }

/-- Comparison in all the search loops: `entry->hash == hash && entry->key == key` -/
def hit [DecidableEq K] (h : UInt64) (k : K) (e : Entry K V) : Bool := e.hash == h && e.key == k

/-- `get` (Hash.hpp:92-113): address and value behind the returned pointer -/
def get [DecidableEq K] (cfg : Cfg K) (t : Tbl K V) (k : K) : Res (Option (Nat × V)) :=
  if t.elements < 1 then .ok none
  else do
    let c ← at_ t (bucket t.cap (cfg.hash k))
    .ok ((c.find? (hit (cfg.hash k) k)).map fun e => (e.addr, e.val))

/-- Replacing the value of the first matching entry of a chain. -/
def putVal [DecidableEq K] (h : UInt64) (k : K) (f : V → V) : List (Entry K V) → List (Entry K V)
  | [] => []
  | e :: c => if hit h k e then { e with val := f e.val } :: c else e :: putVal h k f c

/-- Assigning through the pointer returned by `get`: `if(auto* p = t.get(k)) { *p = f(*p); }` -/
def modify [DecidableEq K] (cfg : Cfg K) (t : Tbl K V) (k : K) (f : V → V) : Res (Tbl K V) :=
  if t.elements < 1 then .ok t
  else
    match t.table with
    | none => .ub
    | some tb =>
      let b := bucket t.cap (cfg.hash k)
      if b < tb.length then .ok { t with table := some (tb.modify b (putVal (cfg.hash k) k f)) }
      else .ub

/-- The first step of `insert_hash` (Hash.hpp:165-167) -/
def grow (cfg : Cfg K) (t : Tbl K V) : Res (Tbl K V) :=
  if t.limit < 1 ∨ t.elements ≥ t.limit then redistribute cfg t else .ok t

/-- `insert_hash` (Hash.hpp:160-213): new table, "existed", address and value behind the pointer -/
def insertHash [DecidableEq K] (cfg : Cfg K) (upd : Bool) (t : Tbl K V) (k : K) (v : V) :
    Res (Tbl K V × Bool × Nat × V) := do
  let t ← grow cfg t
  let h := cfg.hash k
  let b := bucket t.cap h
  let c ← at_ t b
  match c.find? (hit h k) with
  | some e =>
    if upd then
      .ok ({ t with table := t.table.map (·.modify b (putVal h k fun _ => v)) }, true, e.addr, v)
    else .ok (t, true, e.addr, e.val)
  | none =>
    let (a, cache, fresh) := match t.cache with
      | a :: cache => (a, cache, t.fresh)
      | [] => (t.fresh, [], t.fresh + 1)
    .ok ({ t with
            table := t.table.map (·.modify b (· ++ [⟨a, h, k, v⟩])),
            elements := t.elements + 1, cache := cache, fresh := fresh }, false, a, v)

/-- `insert` (Hash.hpp:146-151) -/
def insert [DecidableEq K] (cfg : Cfg K) (t : Tbl K V) (k : K) (v : V) :
    Res (Tbl K V × Bool × Nat × V) := insertHash cfg false t k v

/-- `upsert` (Hash.hpp:153-158) -/
def upsert [DecidableEq K] (cfg : Cfg K) (t : Tbl K V) (k : K) (v : V) :
    Res (Tbl K V × Bool × Nat × V) := insertHash cfg true t k v

/-- The unlinking loop of `get_rm` (Hash.hpp:126-143): the entry and the chain without it -/
def unlink [DecidableEq K] (h : UInt64) (k : K) :
    List (Entry K V) → Option (Entry K V × List (Entry K V))
  | [] => none
  | e :: c => if hit h k e then some (e, c) else (unlink h k c).map fun (x, c) => (x, e :: c)

/-- `extract` (Hash.hpp:343-361) with `get_rm` (Hash.hpp:115-144) -/
def extract [DecidableEq K] (cfg : Cfg K) (t : Tbl K V) (k : K) : Res (Tbl K V × Option V) :=
  if t.elements < 1 then .ok (t, none)
  else do
    let h := cfg.hash k
    let b := bucket t.cap h
    let c ← at_ t b
    match unlink h k c with
    | none => .ok (t, none)
    | some (e, c) =>
      .ok ({ t with table := t.table.map (·.set b c), elements := t.elements - 1,
                    cache := e.addr :: t.cache }, some e.val)

/-- `remove` (Hash.hpp:330-341) -/
def remove [DecidableEq K] (cfg : Cfg K) (t : Tbl K V) (k : K) : Res (Tbl K V) := do
  let (t, _) ← extract cfg t k
  .ok t

/-- The bucket loop of `foreach_break` (Hash.hpp:245-266) with a function that never stops and
leaves `f key val` in the value: what is left of the table, and the entries visited. `elems` is
`this->elements`, `n` counts visits. -/
def forLoop (f : K → V → V) (elems : Nat) : Nat → List (List (Entry K V)) →
    List (List (Entry K V)) × List (Entry K V)
  | _, [] => ([], [])
  | n, c :: tb =>
    let c' := c.map fun e => { e with val := f e.key e.val }
    if n + c.length ≥ elems then (c' :: tb, c)
    else
      let (tb', es) := forLoop f elems (n + c.length) tb
      (c' :: tb', c ++ es)

/-- `foreach` (Hash.hpp:238-277): the table afterwards and the entries the function saw. The
table has `cap` buckets (`alloc_table`, Hash.hpp:229-235), so the loop runs over all of it. -/
def foreach (t : Tbl K V) (f : K → V → V) : Res (Tbl K V × List (Entry K V)) :=
  if t.elements < 1 then .ok (t, [])
  else match t.table with
    | none => .ub
    | some tb =>
      let (tb', es) := forLoop f t.elements 0 tb
      .ok ({ t with table := some tb' }, es)

/-- The bucket loop of `remove_if` (Hash.hpp:286-324): the table, the removed entries in order,
and the entries the function saw. -/
def rmLoop (p : K → V → Bool) (elems : Nat) : Nat → List (List (Entry K V)) →
    List (List (Entry K V)) × List (Entry K V) × List (Entry K V)
  | _, [] => ([], [], [])
  | n, c :: tb =>
    let keep := c.filter fun e => !p e.key e.val
    let gone := c.filter fun e => p e.key e.val
    if n + c.length ≥ elems then (keep :: tb, gone, c)
    else
      let (tb', gs, es) := rmLoop p elems (n + c.length) tb
      (keep :: tb', gone ++ gs, c ++ es)

/-- `remove_if` (Hash.hpp:279-327) -/
def removeIf (t : Tbl K V) (p : K → V → Bool) : Res (Tbl K V × List (Entry K V)) :=
  if t.elements < 1 then .ok (t, [])
  else match t.table with
    | none => .ub
    | some tb =>
      let (tb', gone, es) := rmLoop p t.elements 0 tb
      .ok ({ t with table := some tb', elements := t.elements - gone.length,
                    cache := (gone.map (·.addr)).reverse ++ t.cache }, es)

/-- `clear` (Hash.hpp:215-227). The member `table` keeps pointing at memory that the heap retains
and fills with zeros (`Heap::clear`, Heap.cpp:217-222), so every bucket is seen empty. -/
def clear (t : Tbl K V) : Tbl K V :=
  if t.elements < 1 then t
  else { t with table := t.table.map (·.map fun _ => []), cache := [], elements := 0, limit := 0 }

/-- `Iterator::advance` (Hash.hpp:422-447). A position is the rest of the current chain, starting
with the current entry, and the buckets after it; `none` is the null entry. -/
def nextFrom : List (List (Entry K V)) → Option (List (Entry K V) × List (List (Entry K V)))
  | [] => none
  | [] :: tb => nextFrom tb
  | (e :: c) :: tb => some (e :: c, tb)

/-- `operator++` on a position with a current entry (Hash.hpp:399-406) -/
def next : List (Entry K V) × List (List (Entry K V)) →
    Option (List (Entry K V) × List (List (Entry K V)))
  | (_ :: e :: c, tb) => some (e :: c, tb)
  | (_, tb) => nextFrom tb

/-- `begin()` (Hash.h:84-87) -/
def begin (t : Tbl K V) : Option (List (Entry K V) × List (List (Entry K V))) :=
  match t.table with
  | none => none
  | some tb => nextFrom tb

/-- `for(auto x : table)`: entries seen, running at most `fuel` rounds. -/
def iterLoop : Nat → Option (List (Entry K V) × List (List (Entry K V))) → Res (List (Entry K V))
  | _, none => .ok []
  | _, some ([], _) => .ub
  | 0, some (_ :: _, _) => .fuel
  | n + 1, some (e :: c, tb) => do
    let es ← iterLoop n (next (e :: c, tb))
    .ok (e :: es)

/-- The whole iteration; a round per entry suffices. -/
def iterate (t : Tbl K V) : Res (List (Entry K V)) := iterLoop (t.elements + 1) (begin t)

/-- Operations of the interface. -/
inductive Op (K V : Type) where
  | insert (k : K) (v : V)
  | upsert (k : K) (v : V)
  | get (k : K)
  | modify (k : K) (f : V → V)
  | remove (k : K)
  | extract (k : K)
  | removeIf (p : K → V → Bool)
  | foreach (f : K → V → V)
  | iterate
  | size
  | clear

/-- Answers of the operations; pointers are shown with what they point to. -/
inductive Ans (K V : Type) where
  | none
  | entry (existed : Bool) (addr : Nat) (v : V)
  | found (x : Option (Nat × V))
  | value (x : Option V)
  | seen (es : List (K × V))
  | num (n : Nat)
  deriving DecidableEq, Repr

/-- One operation on the table. -/
def step [DecidableEq K] (cfg : Cfg K) (t : Tbl K V) : Op K V → Res (Tbl K V × Ans K V)
  | .insert k v => do
    let (t, x, a, v) ← insert cfg t k v
    .ok (t, .entry x a v)
  | .upsert k v => do
    let (t, x, a, v) ← upsert cfg t k v
    .ok (t, .entry x a v)
  | .get k => do
    let x ← get cfg t k
    .ok (t, .found x)
  | .modify k f => do
    let t ← modify cfg t k f
    .ok (t, .none)
  | .remove k => do
    let t ← remove cfg t k
    .ok (t, .none)
  | .extract k => do
    let (t, x) ← extract cfg t k
    .ok (t, .value x)
  | .removeIf p => do
    let (t, es) ← removeIf t p
    .ok (t, .seen (es.map fun e => (e.key, e.val)))
  | .foreach f => do
    let (t, es) ← foreach t f
    .ok (t, .seen (es.map fun e => (e.key, e.val)))
  | .iterate => do
    let es ← iterate t
    .ok (t, .seen (es.map fun e => (e.key, e.val)))
  | .size => .ok (t, .num t.elements)
  | .clear => .ok (clear t, .none)

/-- A sequence of operations. -/
def run [DecidableEq K] (cfg : Cfg K) (t : Tbl K V) : List (Op K V) → Res (Tbl K V × List (Ans K V))
  | [] => .ok (t, [])
  | o :: os => do
    let (t, a) ← step cfg t o
    let (t, as) ← run cfg t os
    .ok (t, a :: as)

end Srl.HTable
