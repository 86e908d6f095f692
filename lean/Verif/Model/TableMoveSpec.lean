import Verif.Props.HTable
import Verif.Model.TableMove

/-! # What moving hash tables should mean

The specification of C69: tables are finite maps, moving hands a map over. It names nothing of the
tables' memory. -/

namespace Srl.TableMove

open HTable (Op Ans)
open Props (Map Allows)

variable {K V : Type}

/-- Specification: all tables. -/
abbrev Maps (K V : Type) := Nat → Map K V

def Maps.put (m : Maps K V) (i : Nat) (x : Map K V) : Maps K V := fun k => if k = i then x else m k

/-- Specification: operations act on one map; `move i j` hands the map of `i` to `j` and leaves
`i` empty; a new table is empty. -/
inductive MAllows [DecidableEq K] (m : Maps K V) : MOp K V → Ans K V → Maps K V → Prop
  | on {i o a x} : Allows (m i) o a x → MAllows m (.on i o) a (m.put i x)
  | move {i j} : MAllows m (.move i j) .none ((m.put j (m i)).put i fun _ => none)
  | renew {i b} : MAllows m (.renew i b) .none (m.put i fun _ => none)

/-- Specification: the answers of a program. -/
inductive MTrace [DecidableEq K] : Maps K V → List (MOp K V) → List (Ans K V) → Prop
  | nil {m} : MTrace m [] []
  | cons {m m' o a os as} : MAllows m o a m' → MTrace m' os as → MTrace m (o :: os) (a :: as)

/-- What a program has to keep in mind: the tables moved from and not filled since (`husk`), those
moved from (`lent`), and those moved into (`got`). -/
structure Rules where
  husk : List Nat
  lent : List Nat
  got : List Nat

/-- A table moved from must not be iterated over or moved again unless it has been filled; it must
neither be cleared nor end as long as the program runs; a table moved into must not be cleared. No
table is moved to itself. -/
def Rules.ok (r : Rules) : MOp K V → Bool
  | .on i .iterate => !r.husk.contains i
  | .on i .clear => !r.husk.contains i && !r.lent.contains i && !r.got.contains i
  | .on _ _ => true
  | .move i j => i ≠ j && !r.husk.contains i
  | .renew i _ => !r.lent.contains i

def Rules.next (r : Rules) : MOp K V → Rules
  | .on i (.insert _ _) => { r with husk := r.husk.filter (· ≠ i) }
  | .on i (.upsert _ _) => { r with husk := r.husk.filter (· ≠ i) }
  | .on _ _ => r
  | .move i j => ⟨i :: r.husk.filter (· ≠ j), i :: r.lent, j :: r.got⟩
  | .renew i _ => ⟨r.husk.filter (· ≠ i), r.lent, r.got.filter (· ≠ i)⟩

/-- The program keeps the rules. -/
def Rules.keeps (r : Rules) : List (MOp K V) → Bool
  | [] => true
  | o :: os => r.ok o && (r.next o).keeps os

end Srl.TableMove
