import Verif.Props.LookTimeSpec
import Verif.Props.SharedSpec

/-! # What is looked up and added for an object with shared pointers that was restored -/

namespace Srl.Props
open Shared Typed Doc LookCost

/-- What was looked up and added, in order, for an object that was restored, of which the shared pointers lead into `heap`:
`before` was done before it, `after` is all that was done with it. The object at an address is the one of the key that was
added as that many. A pointer that is met for the first time has its object restored, after which its key is added. -/
inductive Found (C : Nat → GTy) (heap : List (Nat × Obj)) : GTy → Obj → List Op → List Op → Prop
  | plain {ty o b} : Found C heap (.plain ty) o b b
  | empty {e b} : Found C heap (.vec e) (.many []) b b
  | item {e x xs b c d} : Found C heap e x b c → Found C heap (.vec e) (.many xs) c d → Found C heap (.vec e) (.many (x :: xs)) b d
  | done {b} : Found C heap (.record .nil) (.many []) b b
  | member {name ty rest x xs b c d} : Found C heap ty x b c → Found C heap (.record rest) (.many xs) c d →
      Found C heap (.record (.cons name ty rest)) (.many (x :: xs)) b d
  | again {w c a key b} : (added b)[a]? = some key → Found C heap (.shared w c) (addr a) b (b ++ [.look key])
  | first {w c key x b d} : key ∉ added b → heap[(added d).length]? = some (c, x) → Found C heap (C c) x (b ++ [.look key]) d →
      Found C heap (.shared w c) (addr (added d).length) b (d ++ [.add key])

/-- The pointers of objects -/
def pointersOf (C : Nat → GTy) : List (Nat × Obj) → Nat
  | [] => 0
  | (c, x) :: heap => (refs (C c) x).length + pointersOf C heap

/-- The object `o` is restored while it is read; the keys of its pointers are looked up in the order in which they were given,
and for at most 2^32 pointers what is done in the table of keys is in proportion to the pointers in what is restored, where
`w` is how deep the document is nested. -/
def ReadInOrder {σ : Type} (env : Env) (C : Nat → GTy) (G : Graph) (ty : GTy) (o old : Obj) (read : σ → Res (Event × σ))
    (fuel : Nat) (s : σ) (w : Nat) : Prop :=
  ∃ y heap ops t k, Shared.restore KeyCost.keys env C read fuel ty old s = .ok (y, heap) ∧ Copy C G ty o y heap ∧
    Found C heap ty y [] ops ∧ KeysInOrder 0 (lookedUp ops) ∧ run (HTable.new 16) 0 ops = .ok (t, k) ∧
    ((lookedUp ops).length ≤ 2 ^ 32 → k ≤ (6 * (w / 16) + 28) * ((refs ty y).length + pointersOf C heap) + 16 * (w / 16 + 6))

end Srl.Props
