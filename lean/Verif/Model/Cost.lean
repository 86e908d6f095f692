import Verif.Model.HTable
import Verif.Model.Fnv
import Verif.Model.Doc

/-! # How much is done for the names of a document (src/lib/Environment.cpp:50-73, include/Srl/Hash.hpp)

While a document is loaded each name is looked up in the table of names, and added to it if it is new. Counted are the
rounds of the loops of the table, the bytes of names that are hashed and copied, and the tokens that are read. Not counted
is what the parsers do to read a token, and what it takes to compare two names once their hashes agree. -/

namespace Srl.Cost
open HTable

/-- `Environment::str_table` (Environment.h:49): texts under themselves -/
abbrev Strs := Tbl Bytes Bytes

/-- The hash function of names (Hash.cpp:19-49; always defined, see `Srl.Props.hash_is_fnv1a`), and the load factor 1.0
(Hash.h:47) -/
def names : Cfg Bytes := ⟨fun b => match Fnv.hash b with | .ok h => h | _ => 0, id⟩

variable {K V : Type}

/-- Rounds of the loops that search a chain (Hash.hpp:103-110, 173-188) -/
def look [DecidableEq K] (h : UInt64) (k : K) : List (Entry K V) → Nat
  | [] => 0
  | e :: c => if hit h k e then 1 else look h k c + 1

/-- The chain for a hash -/
def chain (t : Tbl K V) (h : UInt64) : List (Entry K V) := ((t.table.getD [])[bucket t.cap h]?).getD []

/-- Rounds of `get` (Hash.hpp:92-113) -/
def getSteps [DecidableEq K] (cfg : Cfg K) (t : Tbl K V) (k : K) : Nat :=
  if t.elements < 1 then 0 else look (cfg.hash k) k (chain t (cfg.hash k))

/-- Rounds of the loops that link entries to the new table (Hash.hpp:66-84): one for the entry, and the way to the end of
its new chain -/
def relinkSteps (cap : Nat) : List (Entry K V) → List (List (Entry K V)) → Nat
  | [], _ => 0
  | e :: es, nt => 1 + (nt[bucket cap e.hash]?.getD []).length + relinkSteps cap es (relink cap nt e)

/-- `redistribute` (Hash.hpp:48-89): the buckets that are cleared (`alloc_table`, Hash.hpp:229-235), those that are visited
(Hash.hpp:64), and the rounds above -/
def redistributeSteps (cfg : Cfg K) (t : Tbl K V) : Nat :=
  if t.limit = 0 then (setCapacity cfg t t.cap).cap
  else
    let cap := (setCapacity cfg t (t.cap * 2)).cap
    cap + t.cap + relinkSteps cap (t.table.getD []).flatten (List.replicate cap [])

/-- Rounds of `insert_hash` (Hash.hpp:160-213) -/
def insertSteps [DecidableEq K] (cfg : Cfg K) (t : Tbl K V) (k : K) : Nat :=
  (if t.limit < 1 ∨ t.elements ≥ t.limit then redistributeSteps cfg t else 0) +
    match grow cfg t with
    | .ok t => look (cfg.hash k) k (chain t (cfg.hash k))
    | _ => 0

/-- `Environment::store_string` (Environment.cpp:50-73) for a name in UTF-8: the table afterwards, and what was done. The
name is hashed here, by `get` and by `insert`, and copied. -/
def storeString (t : Strs) (name : Bytes) : Res (Strs × Nat) :=
  if name.length < 1 then .ok (t, 0)
  else do
    let x ← HTable.get names t name
    let n := 2 * name.length + getSteps names t name
    match x with
    | some _ => .ok (t, n)
    | none => do
      let (t', _) ← HTable.insert names t name name
      .ok (t', n + 2 * name.length + insertSteps names t name)

variable {σ : Type}

/-- Reading a token and storing its name, with the table of names and what has been done so far: `Tree::prologue_in`
(Tree.cpp:39-49) with `create_node` (Environment.cpp:124-131), `Node::read_source` (Node.cpp:246-277) with `create_link`
(Environment.cpp:75-84). -/
def counted (read : σ → Res (Event × σ)) (x : σ × Strs × Nat) : Res (Event × (σ × Strs × Nat)) := do
  let (e, s) ← read x.1
  match e.tok with
  | .scopeEnd => .ok (e, (s, x.2.1, x.2.2 + 1))
  | _ => do
    let (t, n) ← storeString x.2.1 e.name
    .ok (e, (s, t, x.2.2 + n + 1))

/-- Loading a document into a new tree, and what was done for it -/
def load (read : σ → Res (Event × σ)) (fuel : Nat) (s : σ) : Res (Root × Nat) := do
  let (r, x) ← Doc.load (counted read) fuel (s, HTable.new 64, 0)
  .ok (r, x.2.2)

end Srl.Cost
